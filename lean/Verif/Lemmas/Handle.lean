import Verif.Model.Handle
import Verif.Lemmas.Lifecycle4
/-! Handles of the C interface: invariants. -/
namespace Verif.Lemmas.Handle
open Verif Verif.Model Verif.Model.Life Verif.Model.Handle Verif.Spec Verif.Lemmas.Life

/-- The answers of `close()` in a log. -/
def rets : List Obs → List Bool
  | [] => []
  | .closeRet b :: l => b :: rets l
  | _ :: l => rets l

theorem rets_append (a b : List Obs) : rets (a ++ b) = rets a ++ rets b := by
  induction a with
  | nil => rfl
  | cons x xs ih => cases x <;> simp [rets, ih]

theorem mem_rets {b : Bool} {l : List Obs} : b ∈ rets l ↔ Obs.closeRet b ∈ l := by
  induction l with
  | nil => simp [rets]
  | cons x xs ih => cases x <;> simp [rets, ih]

/-- What steps of the watcher's thread and of a running `close()` or destructor do to the owner. -/
inductive Moved (s s' : St) : Prop where
  | same (ho : s'.o = s.o) (hl : rets s'.log = rets s.log)
  | closing (c c' : ClosePc) (ho : s.o = .closing c) (ho' : s'.o = .closing c') (hl : s'.log = s.log)
  | returned (c : ClosePc) (b : Bool) (ho : s.o = .closing c) (ho' : s'.o = .idle) (hl : s'.log = s.log ++ [.closeRet b])
  | dtor (ho : InDtor s.o) (ho' : InDtor s'.o) (hne : s.o ≠ .gone) (hl : rets s'.log = rets s.log)

theorem inner_step {cfg : Cfg} {s s' : St} {a : Act} (ha : inner a = true) (hs : step cfg s a = some s') : Moved s s' := by
  cases a with
  | w =>
    simp only [step, wStep] at hs
    split at hs <;> try (simp only [reduceCtorEq, Option.some.injEq] at hs)
    all_goals try (subst hs; exact .same rfl (by simp [callCb, rets_append, rets]))
    · split at hs
      · simp at hs; subst hs; exact .same rfl rfl
      · split at hs <;> simp at hs <;> subst hs <;> exact .same rfl (by simp [callCb, rets_append, rets])
    · split at hs
      · simp at hs
      · rename_i hc; simp at hs; subst hs; have := closeStep_frame hc; exact .same (by simp_all) (by simp_all)
      · rename_i hc; simp at hs; subst hs; have := closeStep_frame hc; exact .same (by simp_all) (by simp_all)
  | o =>
    simp only [step, oStep] at hs
    split at hs
    · rename_i c ho
      split at hs
      · simp at hs
      · rename_i hc; simp at hs; subst hs; have := closeStep_frame hc; exact .closing c _ ho rfl (by simp_all)
      · rename_i hc; simp at hs; subst hs; exact .returned c _ ho rfl (congrArg (· ++ [_]) (closeStep_frame hc).1)
    · rename_i c ho
      split at hs
      · simp at hs
      · rename_i hc; simp at hs; subst hs; have := closeStep_frame hc
        exact .dtor (by simp [ho, InDtor]) (by simp [InDtor]) (by simp [ho]) (by simp_all)
      · rename_i hc; simp at hs; subst hs; have := closeStep_frame hc
        exact .dtor (by simp [ho, InDtor]) (by simp [InDtor]) (by simp [ho]) (by simp_all)
    · rename_i ho
      split at hs
      · split at hs <;> simp at hs; subst hs
        exact .dtor (by simp [ho, InDtor]) (by simp [InDtor]) (by simp [ho]) rfl
      · simp at hs; subst hs
        exact .dtor (by simp [ho, InDtor]) (by simp [InDtor]) (by simp [ho]) rfl
    · rename_i ho
      simp at hs; subst hs
      exact .dtor (by simp [ho, InDtor]) (by simp [InDtor]) (by simp [ho]) (by simp [rets_append, rets])
    · simp at hs
  | oClose => simp [inner] at ha
  | oDtor => simp [inner] at ha
  | _ =>
    simp only [step] at hs
    split at hs <;> (try split at hs) <;> simp at hs <;> subst hs <;> exact .same rfl rfl

/-- A `close()` whose result was taken before answers false. -/
theorem closeStep_invalid {s s' : St} {c : ClosePc} {b : Bool} (hv : s.valid = false) (hc : c ≠ .get)
    (h : closeStep s c = some (s', .inr b)) : b = false := by
  cases c with
  | load => simp only [closeStep] at h; split at h <;> simp at h
  | write => simp [closeStep] at h
  | store v => simp [closeStep] at h
  | check v => simp only [closeStep, hv, Bool.false_eq_true, if_false] at h; split at h <;> (simp at h; exact h.2)
  | get => exact absurd rfl hc

/-- Steps of the worker do not move the owner. -/
theorem worker_owner {cfg : Cfg} {s s' : St} {a : Act} (ha : isWorker a = true) (hs : step cfg s a = some s') :
    s'.o = s.o ∧ rets s'.log = rets s.log := by
  have : inner a = true := by cases a <;> simp [isWorker] at ha <;> rfl
  cases a with
  | w =>
    simp only [step, wStep] at hs
    split at hs <;> try (simp only [reduceCtorEq, Option.some.injEq] at hs)
    all_goals try (subst hs; exact ⟨rfl, by simp [callCb, rets_append, rets]⟩)
    · split at hs
      · simp at hs; subst hs; exact ⟨rfl, rfl⟩
      · split at hs <;> simp at hs <;> subst hs <;> exact ⟨rfl, by simp [callCb, rets_append, rets]⟩
    · split at hs
      · simp at hs
      · rename_i hc; simp at hs; subst hs; have := closeStep_frame hc; exact ⟨by simp_all, by simp_all⟩
      · rename_i hc; simp at hs; subst hs; have := closeStep_frame hc; exact ⟨by simp_all, by simp_all⟩
  | o => simp [isWorker] at ha
  | oClose => simp [isWorker] at ha
  | oDtor => simp [isWorker] at ha
  | _ =>
    simp only [step] at hs
    split at hs <;> (try split at hs) <;> simp at hs <;> subst hs <;> exact ⟨rfl, rfl⟩

/-- With a working stop signal, only the first answer of `close()` can be true. -/
theorem tail_false {cfg : Cfg} (hfd : cfg.fdOk = true) {s : St} (h : Reachable cfg s) : true ∉ (rets s.log).tail := by
  have key : Reachable cfg s ∧ true ∉ (rets s.log).tail := by
    refine reachable_induct (P := fun s => Reachable cfg s ∧ true ∉ (rets s.log).tail) ⟨⟨[], rfl⟩, by simp [init, rets]⟩ ?_ _ h
    intro s a s' ⟨hr, ht⟩ hs
    refine ⟨reachable_step hr hs, ?_⟩
    have same : rets s'.log = rets s.log → true ∉ (rets s'.log).tail := fun e => by rw [e]; exact ht
    by_cases ha : inner a = true
    · cases inner_step ha hs with
      | same _ hl => exact same hl
      | closing _ _ _ _ hl => exact same (by rw [hl])
      | dtor _ _ _ hl => exact same hl
      | returned c b ho ho' hl =>
        have hx : rets s'.log = rets s.log ++ [b] := by rw [hl, rets_append]; rfl
        rw [hx]
        cases hrs : rets s.log with
        | nil => simp
        | cons x xs =>
          rw [hrs] at ht
          simp only [List.cons_append, List.tail_cons, List.mem_append, List.mem_singleton, not_or] at ht ⊢
          refine ⟨ht, ?_⟩
          intro hb
          subst hb
          -- the result was taken before
          have hv := ((sig_reachable hfd hr).ret ⟨x, mem_rets.1 (by rw [hrs]; exact List.mem_cons_self)⟩).1
          have hao : a = .o := by
            cases a <;> simp [inner] at ha <;> try rfl
            all_goals
              exfalso
              have := worker_owner (cfg := cfg) (s := s) (s' := s') rfl hs
              rw [this.1, ho] at ho'
              cases ho'
          subst hao
          simp only [step, oStep, ho] at hs
          split at hs
          · simp at hs
          · simp at hs; subst hs; cases ho'
          · rename_i hc
            simp at hs; subst hs
            have hlog := (closeStep_frame hc).1
            have hb := closeStep_invalid hv (fun e => by
              subst e
              have := (fut_reachable hr).f8 (.inl ho)
              rw [hv] at this; cases this) hc
            simp only [hlog] at hl
            have := List.append_cancel_left hl
            simp at this
            subst this
            exact absurd hb (by simp)
    · cases a <;> simp [inner] at ha
      · simp only [step] at hs; split at hs <;> simp at hs; subst hs; exact same (by simp [rets_append, rets])
      · simp only [step] at hs; split at hs <;> simp at hs; subst hs; exact same (by simp [rets_append, rets])
  exact key.2

/-- What holds of every handle. -/
structure HInv (cfg : Cfg) (h : H) : Prop where
  reach : Reachable cfg h.life
  out : h.inC = false → (h.freed = false ∧ h.life.o = .idle ∧ h.rets = rets h.life.log ∧ true ∉ h.rets) ∨
    (h.freed = true ∧ h.life.o = .gone ∧ h.rets = rets h.life.log ∧ ∃ l, h.rets = l ++ [true] ∧ true ∉ l)
  inn : h.inC = true → h.freed = false ∧ true ∉ h.rets ∧
    ((∃ c, h.life.o = .closing c ∧ h.rets = rets h.life.log) ∨
     (InDtor h.life.o ∧ h.life.o ≠ .gone ∧ h.rets ++ [true] = rets h.life.log))

theorem hinv_open (cfg : Cfg) : HInv cfg (hopen cfg) :=
  ⟨⟨[], rfl⟩, fun _ => .inl ⟨rfl, rfl, rfl, by simp [hopen]⟩, fun h => by simp [hopen] at h⟩

theorem settle_inv {cfg : Cfg} {h : H} {l : St} (hi : HInv cfg h) {a : Act} (ha : inner a = true) (hs : step cfg h.life a = some l) :
    HInv cfg (settle cfg { h with life := l }) := by
  have hr := reachable_step hi.reach hs
  have hm := inner_step ha hs
  cases hC : h.inC with
  | false =>
    simp only [settle, hC, Bool.not_false, if_true]
    refine ⟨hr, ?_, fun h => by simp at h⟩
    intro _
    rcases hi.out hC with ⟨h1, h2, h3, h4⟩ | ⟨h1, h2, h3, h4⟩
    · cases hm with
      | same ho hl => exact .inl ⟨h1, ho.trans h2, h3.trans hl.symm, h4⟩
      | closing c c' ho => rw [h2] at ho; cases ho
      | returned c b ho => rw [h2] at ho; cases ho
      | dtor ho => rw [h2] at ho; cases ho
    · cases hm with
      | same ho hl => exact .inr ⟨h1, ho.trans h2, h3.trans hl.symm, h4⟩
      | closing c c' ho => rw [h2] at ho; cases ho
      | returned c b ho => rw [h2] at ho; cases ho
      | dtor ho _ hne => exact absurd h2 hne
  | true =>
    obtain ⟨h1, h2, h3⟩ := hi.inn hC
    have dt : InDtor l.o → h.rets ++ [true] = rets l.log →
        HInv cfg (settle cfg { h with life := l, inC := true }) := by
      intro hd hl
      simp only [settle, hC, Bool.not_true, Bool.false_eq_true, if_false]
      cases ho : l.o with
      | idle => rw [ho] at hd; cases hd
      | closing c => rw [ho] at hd; cases hd
      | gone =>
        refine ⟨hr, ?_, fun h => by simp at h⟩
        intro _
        exact .inr ⟨rfl, ho, hl, h.rets, rfl, h2⟩
      | dtorClosing c => exact ⟨hr, fun h => by simp at h, fun _ => ⟨h1, h2, .inr ⟨by simp [ho, InDtor], by simp [ho], hl⟩⟩⟩
      | dtorFuture => exact ⟨hr, fun h => by simp at h, fun _ => ⟨h1, h2, .inr ⟨by simp [ho, InDtor], by simp [ho], hl⟩⟩⟩
      | dtorFd => exact ⟨hr, fun h => by simp at h, fun _ => ⟨h1, h2, .inr ⟨by simp [ho, InDtor], by simp [ho], hl⟩⟩⟩
    rcases h3 with ⟨c, ho, hl⟩ | ⟨ho, hne, hl⟩
    · have cl : ∀ c', l.o = .closing c' → rets l.log = rets h.life.log →
          HInv cfg (settle cfg { h with life := l, inC := true }) := by
        intro c' ho' hl'
        simp only [settle, hC, Bool.not_true, Bool.false_eq_true, if_false, ho']
        exact ⟨hr, fun h => by simp at h, fun _ => ⟨h1, h2, .inl ⟨c', ho', hl.trans hl'.symm⟩⟩⟩
      cases hm with
      | same ho' hl' => exact cl c (ho'.trans ho) hl'
      | closing c1 c' ho1 ho' hl' => exact cl c' ho' (by rw [hl'])
      | dtor ho1 => rw [ho] at ho1; cases ho1
      | returned c1 b ho1 ho' hl' =>
        have hret : rets l.log = h.rets ++ [b] := by rw [hl', rets_append, ← hl]; rfl
        simp only [settle, hC, Bool.not_true, Bool.false_eq_true, if_false, ho']
        have hlast : l.log.getLast? = some (.closeRet b) := by rw [hl']; simp
        cases b with
        | false =>
          rw [hlast, if_neg (by simp)]
          refine ⟨hr, ?_, fun h => by simp at h⟩
          intro _
          exact .inl ⟨h1, ho', hret.symm, by simp [h2]⟩
        | true =>
          rw [hlast, if_pos rfl]
          have : step cfg l .oDtor = some { l with o := .dtorClosing .load, log := l.log ++ [.dtorCall] } := by simp [step, ho']
          rw [this]
          refine ⟨reachable_step hr this, fun h => by simp at h, fun _ => ⟨h1, h2, .inr ⟨by simp [InDtor], by simp, ?_⟩⟩⟩
          simp [rets_append, rets, hret]
    · cases hm with
      | same ho' hl' => exact dt (by rw [ho']; exact ho) (hl.trans hl'.symm)
      | closing c c' ho1 => rw [ho1] at ho; cases ho
      | returned c b ho1 => rw [ho1] at ho; cases ho
      | dtor _ ho' _ hl' => exact dt ho' (hl.trans hl'.symm)

theorem hstep_inv {cfg : Cfg} {h h' : H} (hi : HInv cfg h) {a : HAct} (hs : hstep cfg h a = .ok (some h')) : HInv cfg h' := by
  cases a with
  | life a =>
    simp only [hstep] at hs
    split at hs
    · rename_i ha
      cases hl : step cfg h.life a with
      | none => rw [hl] at hs; simp at hs
      | some l =>
        rw [hl] at hs
        simp at hs
        subst hs
        exact settle_inv hi ha hl
    · simp at hs
  | close =>
    simp only [hstep] at hs
    split at hs
    · simp at hs
    · rename_i hC
      split at hs
      · cases hs
      · rename_i hF
        cases hl : step cfg h.life .oClose with
        | none => rw [hl] at hs; simp at hs
        | some l =>
          rw [hl] at hs
          simp at hs
          subst hs
          have hr := reachable_step hi.reach hl
          rcases hi.out (by simpa using hC) with ⟨h1, h2, h3, h4⟩ | ⟨h1, _⟩
          · simp [step, h2] at hl
            subst hl
            exact ⟨hr, fun h => by simp at h, fun _ => ⟨h1, h4, .inl ⟨.load, rfl, by simp [rets_append, rets, h3]⟩⟩⟩
          · exact absurd h1 hF

theorem hrun_inv {cfg : Cfg} : ∀ (acts : List HAct) (h h' : H), HInv cfg h → hrun cfg h acts = .ok (some h') → HInv cfg h' := by
  intro acts
  induction acts with
  | nil => intro h h' hi hr; simp only [hrun, Outcome.ok.injEq, Option.some.injEq] at hr; exact hr ▸ hi
  | cons a as ih =>
    intro h h' hi hr
    simp only [hrun] at hr
    cases hs : hstep cfg h a with
    | ub m => rw [hs] at hr; cases hr
    | ok o =>
      rw [hs] at hr
      cases o with
      | none => simp only [Outcome.bind_ok] at hr; cases hr
      | some h1 => simp only [Outcome.bind_ok] at hr; exact ih h1 h' (hstep_inv hi hs) hr

/-- The only undefined use of a handle. -/
theorem hstep_ub {cfg : Cfg} {h : H} {a : HAct} {m : String} (hs : hstep cfg h a = .ub m) : a = .close ∧ h.inC = false ∧ h.freed = true := by
  cases a with
  | life a => simp only [hstep] at hs; split at hs <;> cases hs
  | close =>
    simp only [hstep] at hs
    split at hs
    · cases hs
    · rename_i hC
      split at hs
      · rename_i hF; exact ⟨rfl, by simpa using hC, hF⟩
      · cases hs

end Verif.Lemmas.Handle
