import Verif.Spec.ThrowPolled
import Verif.Lemmas.Polled
/-!
# Callbacks that throw, on Windows and with the portable scanner (C157)
-/

namespace Verif.Props
open Verif Verif.Model Verif.Model.Poll Verif.Spec.Poll Verif.Lemmas.Poll

variable {B : Backend} {d : Bool}

/-- What the callback was called with, by where the worker goes on. -/
private def Fits (n : WPc B) (m : Msg B.ε) : Prop :=
  match n with
  | .opening => ∃ b, m = .live b
  | .die _ _ => ∃ b, m = .live b
  | .deliver _ _ => ∃ e, m = .ev e
  | .setFut _ => ∃ b, m = .die b
  | _ => False

private def LastFits (s : St B) : Prop :=
  ∀ n, (s.w = .inCb n ∨ ∃ c, s.w = .selfClose c n) → ∃ m, (callbacks s.log).getLast? = some m ∧ Fits n m

private theorem last_cb (l : List (Obs B.ε)) (m : Msg B.ε) : (callbacks (l ++ [.cb m])).getLast? = some m := by
  rw [callbacks_append]; simp [callbacks]

private theorem last_other (l : List (Obs B.ε)) (o : Obs B.ε) (h : ∀ m, o ≠ .cb m) : callbacks (l ++ [o]) = callbacks l := by
  rw [callbacks_append]
  cases o with
  | cb m => exact absurd rfl (h m)
  | _ => simp [callbacks]

private theorem close_frame {s s' : St B} {c : ClosePc} {r} (h : closeStep s c = some (s', r)) : s'.w = s.w ∧ s'.log = s.log ∧ s'.o = s.o ∧ s'.fut = s.fut := by
  cases c <;> simp only [closeStep] at h
  · injection h with h; injection h with h _; subst h; exact ⟨rfl, rfl, rfl, rfl⟩
  · split at h <;> (injection h with h; injection h with h _; subst h; exact ⟨rfl, rfl, rfl, rfl⟩)
  · split at h
    · cases h
    · injection h with h; injection h with h _; subst h; exact ⟨rfl, rfl, rfl, rfl⟩

private theorem lastFits_step {s s' : St B} {a : Act B} (h : LastFits s) (hs : step d s a = some s') : LastFits s' := by
  have cb : ∀ (m : Msg B.ε) (n : WPc B), Fits n m → LastFits (callCb s m n) := by
    intro m n hf n' hw
    simp only [callCb] at hw ⊢
    rcases hw with hw | ⟨c, hw⟩
    · injection hw with hw; subst hw; exact ⟨m, last_cb _ _, hf⟩
    · cases hw
  have out : ∀ (s' : St B), (∀ n, s'.w ≠ .inCb n) → (∀ c n, s'.w ≠ .selfClose c n) → LastFits s' := by
    intro s' h1 h2 n hw
    rcases hw with hw | ⟨c, hw⟩
    · exact absurd hw (h1 n)
    · exact absurd hw (h2 c n)
  cases a with
  | w =>
    simp only [step, wStep] at hs
    cases hw : s.w with
    | start => rw [hw] at hs; injection hs with hs; subst hs; apply out <;> (intros; simp only; split <;> simp)
    | check => rw [hw] at hs; injection hs with hs; subst hs; apply out <;> simp
    | live pre =>
      rw [hw] at hs; injection hs with hs; subst hs
      apply cb
      cases pre
      · exact ⟨_, rfl⟩
      · exact ⟨_, rfl⟩
    | opening => rw [hw] at hs; cases hs
    | deliver es next =>
      rw [hw] at hs
      cases es with
      | cons e es => injection hs with hs; subst hs; exact cb _ _ ⟨e, rfl⟩
      | nil =>
        cases next with
        | inl b => injection hs with hs; subst hs; apply out <;> simp
        | inr r => injection hs with hs; subst hs; apply out <;> simp
    | head b =>
      rw [hw] at hs
      simp only at hs
      split at hs
      · injection hs with hs; subst hs; apply out <;> (intros; simp only; split <;> simp)
      · injection hs with hs; subst hs; apply out <;> simp
    | turn b => rw [hw] at hs; cases hs
    | die pre post => rw [hw] at hs; injection hs with hs; subst hs; exact cb _ _ ⟨post, rfl⟩
    | setFut r => rw [hw] at hs; injection hs with hs; subst hs; apply out <;> simp
    | finished => rw [hw] at hs; cases hs
    | inCb n => rw [hw] at hs; cases hs
    | selfClose c n =>
      rw [hw] at hs
      simp only at hs
      obtain ⟨m, hm, hf⟩ := h n (.inr ⟨c, hw⟩)
      split at hs
      · cases hs
      · rename_i hc
        injection hs with hs; subst hs
        have := close_frame hc
        intro n' hw'
        rcases hw' with hw' | ⟨c', hw'⟩
        · cases hw'
        · injection hw' with _ hw'; subst hw'; exact ⟨m, by simp only; rw [this.2.1]; exact hm, hf⟩
      · rename_i hc
        injection hs with hs; subst hs
        have := close_frame hc
        intro n' hw'
        rcases hw' with hw' | ⟨c', hw'⟩
        · injection hw' with hw'; subst hw'; exact ⟨m, by simp only; rw [this.2.1]; exact hm, hf⟩
        · cases hw'
  | sys i =>
    simp only [step] at hs
    split at hs
    · obtain ⟨r, _, rfl⟩ := Option.map_eq_some_iff.1 hs; apply out <;> simp
    · obtain ⟨r, _, rfl⟩ := Option.map_eq_some_iff.1 hs; apply out <;> simp
    · cases hs
  | cbReturn =>
    simp only [step] at hs
    split at hs
    · rename_i n hw
      injection hs with hs; subst hs
      obtain ⟨m, _, hf⟩ := h n (.inl hw)
      cases n <;> first | (simp only [Fits] at hf; done) | (apply out <;> simp)
    · cases hs
  | cbClose =>
    simp only [step] at hs
    split at hs
    · rename_i n hw
      injection hs with hs; subst hs
      intro n' hw'
      rcases hw' with hw' | ⟨c', hw'⟩
      · cases hw'
      · injection hw' with _ hw'; subst hw'; exact h n (.inl hw)
    · cases hs
  | o =>
    simp only [step, oStep] at hs
    have keep : ∀ s' : St B, s'.w = s.w → callbacks s'.log = callbacks s.log → LastFits s' := by
      intro s' h1 h2 n hw; rw [h1] at hw; rw [h2]; exact h n hw
    split at hs
    · split at hs
      · cases hs
      · rename_i hc; have := close_frame hc
        injection hs with hs; subst hs; exact keep _ this.1 (by simp only; rw [this.2.1])
      · rename_i hc; have := close_frame hc
        injection hs with hs; subst hs; exact keep _ this.1 (by simp only; rw [this.2.1]; exact last_other _ _ (by simp))
    · split at hs
      · cases hs
      · rename_i hc; have := close_frame hc
        injection hs with hs; subst hs; exact keep _ this.1 (by simp only; rw [this.2.1])
      · rename_i hc; have := close_frame hc
        injection hs with hs; subst hs; exact keep _ this.1 (by simp only; rw [this.2.1])
    · split at hs
      · split at hs
        · cases hs
        · injection hs with hs; subst hs; exact keep _ rfl (last_other _ _ (by simp))
      · injection hs with hs; subst hs; exact keep _ rfl (last_other _ _ (by simp))
    · cases hs
  | oClose =>
    simp only [step] at hs
    split at hs
    · injection hs with hs; subst hs
      intro n hw
      simp only at hw ⊢
      rw [last_other _ _ (by simp)]; exact h n hw
    · cases hs
  | oDtor =>
    simp only [step] at hs
    split at hs
    · injection hs with hs; subst hs
      intro n hw
      simp only at hw ⊢
      rw [last_other _ _ (by simp)]; exact h n hw
    · cases hs

private theorem finished_stays {s s' : St B} {a : Act B} (hw : s.w = .finished) (hs : step d s a = some s') :
    s'.w = .finished ∧ callbacks s'.log = callbacks s.log ∧ s'.fut = s.fut := by
  cases a with
  | w => simp only [step, wStep, hw] at hs; cases hs
  | sys i => simp only [step, hw] at hs; cases hs
  | cbReturn => simp only [step, hw] at hs; cases hs
  | cbClose => simp only [step, hw] at hs; cases hs
  | o =>
    simp only [step, oStep] at hs
    split at hs
    · split at hs
      · cases hs
      · rename_i hc; have := close_frame hc
        injection hs with hs; subst hs; exact ⟨this.1.trans hw, by simp only; rw [this.2.1], this.2.2.2⟩
      · rename_i hc; have := close_frame hc
        injection hs with hs; subst hs; exact ⟨this.1.trans hw, by simp only; rw [this.2.1]; exact last_other _ _ (by simp), this.2.2.2⟩
    · split at hs
      · cases hs
      · rename_i hc; have := close_frame hc
        injection hs with hs; subst hs; exact ⟨this.1.trans hw, by simp only; rw [this.2.1], this.2.2.2⟩
      · rename_i hc; have := close_frame hc
        injection hs with hs; subst hs; exact ⟨this.1.trans hw, by simp only; rw [this.2.1], this.2.2.2⟩
    · split at hs
      · split at hs
        · cases hs
        · injection hs with hs; subst hs; exact ⟨hw, last_other _ _ (by simp), rfl⟩
      · injection hs with hs; subst hs; exact ⟨hw, last_other _ _ (by simp), rfl⟩
    · cases hs
  | oClose =>
    simp only [step] at hs
    split at hs
    · injection hs with hs; subst hs; exact ⟨hw, last_other _ _ (by simp), rfl⟩
    · cases hs
  | oDtor =>
    simp only [step] at hs
    split at hs
    · injection hs with hs; subst hs; exact ⟨hw, last_other _ _ (by simp), rfl⟩
    · cases hs

private theorem xrun_induct {P : XSt B → Prop} (hstep : ∀ x a x', P x → xstep d x a = some x' → P x') :
    ∀ (acts : List (XAct B)) (x x' : XSt B), P x → xrun d x acts = some x' → P x' := by
  intro acts
  induction acts with
  | nil => intro x x' h hr; simp [xrun] at hr; subst hr; exact h
  | cons a as ih =>
    intro x x' h hr
    simp only [xrun] at hr
    split at hr
    · cases hr
    · rename_i x1 hx1; exact ih x1 x' (hstep x a x1 h hx1) hr

private theorem xthrow {x x' : XSt B} (h : xstep d x .throw = some x') : x.dead = false ∧ ∃ n, x.life.w = .inCb n ∧
    (((∃ es nx, n = .deliver es nx) ∧ x' = { x with dead := true }) ∨
     ((¬ ∃ es nx, n = .deliver es nx) ∧ x' = { x with life := { x.life with w := .finished, fut := some false }, exc := true })) := by
  simp only [xstep] at h
  split at h
  · cases h
  · rename_i hd
    refine ⟨by simpa using hd, ?_⟩
    simp only [throwStep] at h
    split at h
    · rename_i es nx hw; injection h with h; exact ⟨_, hw, .inl ⟨⟨es, nx, rfl⟩, h.symm⟩⟩
    · rename_i n hn hw; injection h with h
      exact ⟨_, hw, .inr ⟨fun ⟨es, nx, e⟩ => hn es nx e, h.symm⟩⟩
    · cases h

private theorem xlife {x x' : XSt B} {a : Act B} (h : xstep d x (.life a) = some x') : x.dead = false ∧
    ((x.exc = true ∧ atGet x.life.o = true ∧ a = .o ∧ x' = { x with dead := true }) ∨
     ((x.exc && atGet x.life.o && a.isO) = false ∧ ∃ l, step d x.life a = some l ∧ x' = { x with life := l })) := by
  simp only [xstep] at h
  split at h
  · cases h
  · rename_i hd
    refine ⟨by simpa using hd, ?_⟩
    split at h
    · rename_i hc
      injection h with h
      simp only [Bool.and_eq_true] at hc
      refine .inl ⟨hc.1.1, hc.1.2, ?_, h.symm⟩
      have := hc.2
      cases a <;> simp [Act.isO] at this <;> rfl
    · rename_i hc
      obtain ⟨l, h1, h2⟩ := Option.map_eq_some_iff.1 h
      exact .inr ⟨by simpa using hc, l, h1, h2.symm⟩

private theorem close_valid {s s' : St B} {c : ClosePc} {r} (h : closeStep s c = some (s', r)) :
    (s.valid = false → s'.valid = false) ∧ (∀ b, r = .inr b → s'.valid = false) := by
  cases c <;> simp only [closeStep] at h
  · injection h with h; injection h with h h2; subst h; subst h2; exact ⟨id, by simp⟩
  · split at h
    · injection h with h; injection h with h h2; subst h; subst h2; exact ⟨id, by simp⟩
    · rename_i hv
      injection h with h; injection h with h h2; subst h; exact ⟨id, fun _ _ => by simpa using hv⟩
  · split at h
    · cases h
    · injection h with h; injection h with h h2; subst h; exact ⟨fun _ => rfl, fun _ _ => rfl⟩

private theorem dfut_step {s s' : St B} {a : Act B} (h : s.o = .dtorFuture → s.valid = false) (hs : step d s a = some s') :
    s'.o = .dtorFuture → s'.valid = false := by
  cases a with
  | w =>
    simp only [step, wStep] at hs
    cases hw : s.w with
    | selfClose c n =>
      rw [hw] at hs
      simp only at hs
      split at hs
      · cases hs
      · rename_i hc; injection hs with hs; subst hs
        intro ho; exact (close_valid hc).1 (h (by rw [← (close_frame hc).2.2.1]; exact ho))
      · rename_i hc; injection hs with hs; subst hs
        intro ho; exact (close_valid hc).1 (h (by rw [← (close_frame hc).2.2.1]; exact ho))
    | deliver es next =>
      rw [hw] at hs
      cases es with
      | cons e es => injection hs with hs; subst hs; exact h
      | nil => cases next <;> (injection hs with hs; subst hs; exact h)
    | head b =>
      rw [hw] at hs
      simp only at hs
      split at hs <;> (injection hs with hs; subst hs; exact h)
    | opening => rw [hw] at hs; cases hs
    | turn b => rw [hw] at hs; cases hs
    | finished => rw [hw] at hs; cases hs
    | inCb n => rw [hw] at hs; cases hs
    | _ => rw [hw] at hs; injection hs with hs; subst hs; exact h
  | sys i =>
    simp only [step] at hs
    split at hs
    · obtain ⟨r, _, rfl⟩ := Option.map_eq_some_iff.1 hs; exact h
    · obtain ⟨r, _, rfl⟩ := Option.map_eq_some_iff.1 hs; exact h
    · cases hs
  | cbReturn => simp only [step] at hs; split at hs <;> first | (injection hs with hs; subst hs; exact h) | cases hs
  | cbClose => simp only [step] at hs; split at hs <;> first | (injection hs with hs; subst hs; exact h) | cases hs
  | o =>
    simp only [step, oStep] at hs
    split at hs
    · split at hs
      · cases hs
      · injection hs with hs; subst hs; intro ho; cases ho
      · injection hs with hs; subst hs; intro ho; cases ho
    · split at hs
      · cases hs
      · injection hs with hs; subst hs; intro ho; cases ho
      · rename_i hc; injection hs with hs; subst hs; intro _; exact (close_valid hc).2 _ rfl
    · split at hs
      · split at hs
        · cases hs
        · injection hs with hs; subst hs; intro ho; cases ho
      · injection hs with hs; subst hs; intro ho; cases ho
    · cases hs
  | oClose => simp only [step] at hs; split at hs <;> first | (injection hs with hs; subst hs; intro ho; cases ho) | cases hs
  | oDtor => simp only [step] at hs; split at hs <;> first | (injection hs with hs; subst hs; intro ho; cases ho) | cases hs

/-- Before an exception was stored the life is an ordinary one. -/
private theorem xreach_inv {x : XSt B} (h : XReach d x) :
    (x.exc = false → Reachable B d x.life ∧ LastFits x.life ∧ (x.life.o = .dtorFuture → x.life.valid = false)) ∧ (x.exc = true → x.life.w = .finished) := by
  obtain ⟨acts, hr⟩ := h
  refine xrun_induct (P := fun x => (x.exc = false → Reachable B d x.life ∧ LastFits x.life ∧ (x.life.o = .dtorFuture → x.life.valid = false)) ∧ (x.exc = true → x.life.w = .finished)) ?_ acts {} x ⟨?_, by simp⟩ hr
  · intro x a x' ⟨h1, h2⟩ hs
    cases a with
    | throw =>
      obtain ⟨_, n, _, ⟨_, rfl⟩ | ⟨_, rfl⟩⟩ := xthrow hs
      · exact ⟨h1, h2⟩
      · exact ⟨by simp, by simp⟩
    | life a =>
      obtain ⟨_, ⟨_, _, _, rfl⟩ | ⟨_, l, hl, rfl⟩⟩ := xlife hs
      · exact ⟨h1, h2⟩
      · refine ⟨fun he => ?_, fun he => ?_⟩
        · obtain ⟨h3, h4, h5⟩ := h1 he
          exact ⟨reachable_run h3 (acts := [a]) (by simp [run, hl]), lastFits_step h4 hl, dfut_step h5 hl⟩
        · have hw := h2 he
          exact (finished_stays hw hl).1
  · intro _
    refine ⟨⟨[], rfl⟩, ?_, fun h => by cases h⟩
    intro n hw
    rcases hw with hw | ⟨c, hw⟩ <;> cases hw

/-! ## C157 -/

/-- C157, the full claim: a callback that throws ends its watch, with the die message as always, and not the program. -/
def C157_full : Prop := ∀ (B : Backend) (d : Bool) (x : XSt B), XReach d x →
  x.dead = false ∧ (x.life.w = .finished → ∃ live die, Ended live die (callbacks x.life.log))

/-- C157: an exception from a callback that was called with an event ends the program at once. -/
theorem C157_event_partial (x0 x1 : XSt B) (h0 : XReach d x0) (e : B.ε) (hm : Running x0.life (.ev e)) (hs : xstep d x0 .throw = some x1) : x1.dead = true := by
  obtain ⟨_, n, hn, ⟨_, rfl⟩ | ⟨hx, rfl⟩⟩ := xthrow hs
  · rfl
  · exfalso
    have hinv := xreach_inv h0
    have hex : x0.exc = false := by
      cases he : x0.exc with
      | false => rfl
      | true => have := hinv.2 he; rw [hn] at this; cases this
    obtain ⟨m, h1, h2⟩ := (hinv.1 hex).2.1 n (.inl hn)
    rw [hm.2] at h1
    injection h1 with h1
    subst h1
    cases n <;> simp only [Fits] at h2
    · obtain ⟨_, h2⟩ := h2; cases h2
    · exact hx ⟨_, _, rfl⟩
    · obtain ⟨_, h2⟩ := h2; cases h2
    · obtain ⟨_, h2⟩ := h2; cases h2

/-- The owner has still to come to `get`. -/
private def before : OPc → Bool
  | .idle => true
  | .closing _ => true
  | .dtorClosing _ => true
  | _ => false

private def ownerLeft : OPc → Nat
  | .idle => 3
  | .closing .store => 3
  | .closing .valid => 2
  | .closing .get => 1
  | .dtorClosing .store => 3
  | .dtorClosing .valid => 2
  | .dtorClosing .get => 1
  | _ => 0

private structure Doomed (x : XSt B) : Prop where
  exc : x.exc = true
  w : x.life.w = .finished
  fut : x.life.fut = some false
  valid : x.life.valid = true
  o : before x.life.o = true
  ret : ∀ o ∈ x.life.log, ¬ IsReturn o

private theorem doomed_step {x x' : XSt B} {a : XAct B} (h : Doomed x) (hs : xstep d x a = some x') :
    Doomed x' ∧ x.dead = false ∧ callbacks x'.life.log = callbacks x.life.log ∧
      ((ownerMoves a = true ∧ x'.dead = true ∧ 1 ≤ ownerLeft x.life.o) ∨
       (ownerMoves a = true ∧ x'.dead = false ∧ ownerLeft x'.life.o + 1 ≤ ownerLeft x.life.o) ∨
       (ownerMoves a = false ∧ x'.dead = false ∧ ownerLeft x'.life.o = ownerLeft x.life.o)) := by
  obtain ⟨he, hw, hf, hv, hb, hn⟩ := h
  cases a with
  | throw => obtain ⟨_, n, hn, _⟩ := xthrow hs; rw [hw] at hn; cases hn
  | life a =>
    obtain ⟨hd, ⟨_, hg, rfl, rfl⟩ | ⟨hno, l, hl, rfl⟩⟩ := xlife hs
    · refine ⟨⟨he, hw, hf, hv, hb, hn⟩, hd, rfl, .inl ⟨rfl, rfl, ?_⟩⟩
      revert hg
      generalize x.life.o = o
      cases o with
      | closing c => cases c <;> simp [atGet, ownerLeft]
      | dtorClosing c => cases c <;> simp [atGet, ownerLeft]
      | _ => simp [atGet]
    · obtain ⟨f1, f2, f3⟩ := finished_stays hw hl
      simp only [he, Bool.true_and] at hno
      cases a with
      | o =>
        simp only [Act.isO, Bool.and_true] at hno
        simp only [step, oStep] at hl
        cases ho : x.life.o with
        | idle => rw [ho] at hl; cases hl
        | closing c =>
          rw [ho] at hl
          cases c with
          | store => simp only [closeStep] at hl; injection hl with hl; subst hl; exact ⟨⟨he, hw, hf, hv, rfl, hn⟩, hd, rfl, .inr (.inl ⟨rfl, hd, by simp [ownerLeft]⟩)⟩
          | valid => simp only [closeStep, hv] at hl; injection hl with hl; subst hl; exact ⟨⟨he, hw, hf, hv, rfl, hn⟩, hd, rfl, .inr (.inl ⟨rfl, hd, by simp [ownerLeft]⟩)⟩
          | get => rw [ho] at hno; cases hno
        | dtorClosing c =>
          rw [ho] at hl
          cases c with
          | store => simp only [closeStep] at hl; injection hl with hl; subst hl; exact ⟨⟨he, hw, hf, hv, rfl, hn⟩, hd, rfl, .inr (.inl ⟨rfl, hd, by simp [ownerLeft]⟩)⟩
          | valid => simp only [closeStep, hv] at hl; injection hl with hl; subst hl; exact ⟨⟨he, hw, hf, hv, rfl, hn⟩, hd, rfl, .inr (.inl ⟨rfl, hd, by simp [ownerLeft]⟩)⟩
          | get => rw [ho] at hno; cases hno
        | dtorFuture => rw [ho] at hb; cases hb
        | gone => rw [ho] at hb; cases hb
      | oClose =>
        simp only [step] at hl
        split at hl
        · rename_i ho
          injection hl with hl; subst hl
          refine ⟨⟨he, hw, hf, hv, rfl, ?_⟩, hd, f2, .inr (.inr ⟨rfl, hd, by rw [ho]; rfl⟩)⟩
          intro o hmem
          simp only [List.mem_append, List.mem_singleton] at hmem
          rcases hmem with h | rfl
          · exact hn o h
          · simp [IsReturn]
        · cases hl
      | oDtor =>
        simp only [step] at hl
        split at hl
        · rename_i ho
          injection hl with hl; subst hl
          refine ⟨⟨he, hw, hf, hv, rfl, ?_⟩, hd, f2, .inr (.inr ⟨rfl, hd, by rw [ho]; rfl⟩)⟩
          intro o hmem
          simp only [List.mem_append, List.mem_singleton] at hmem
          rcases hmem with h | rfl
          · exact hn o h
          · simp [IsReturn]
        · cases hl
      | w => simp only [step, wStep, hw] at hl; cases hl
      | sys i => simp only [step, hw] at hl; cases hl
      | cbReturn => simp only [step, hw] at hl; cases hl
      | cbClose => simp only [step, hw] at hl; cases hl

private theorem dead_stuck {x : XSt B} (h : x.dead = true) (a : XAct B) : xstep d x a = none := by
  cases a <;> simp [xstep, h]

private theorem doomed_run : ∀ (acts : List (XAct B)) (x x' : XSt B), Doomed x → x.dead = false → xrun d x acts = some x' →
    Doomed x' ∧ callbacks x'.life.log = callbacks x.life.log ∧ acts.countP ownerMoves + (if x'.dead then 0 else ownerLeft x'.life.o) ≤ ownerLeft x.life.o := by
  intro acts
  induction acts with
  | nil => intro x x' h hnd hr; simp [xrun] at hr; subst hr; exact ⟨h, rfl, by simp [hnd]⟩
  | cons a as ih =>
    intro x x' h hnd hr
    simp only [xrun] at hr
    split at hr
    · cases hr
    · rename_i x1 hx1
      obtain ⟨h1, _, hc, hcase⟩ := doomed_step h hx1
      rcases hcase with ⟨ha, hdead, hle⟩ | ⟨ha, hnd1, hle⟩ | ⟨ha, hnd1, hle⟩
      · cases as with
        | nil =>
          simp [xrun] at hr; subst hr
          exact ⟨h1, hc, by simp [ha, hdead]; exact hle⟩
        | cons b bs => simp [xrun, dead_stuck hdead] at hr
      · obtain ⟨h2, hc2, h3⟩ := ih x1 x' h1 hnd1 hr
        exact ⟨h2, hc2.trans hc, by rw [List.countP_cons, if_pos ha]; omega⟩
      · obtain ⟨h2, hc2, h3⟩ := ih x1 x' h1 hnd1 hr
        refine ⟨h2, hc2.trans hc, ?_⟩
        rw [List.countP_cons, if_neg (by simp [ha])]; omega

/-- C157: after an exception from the live or the die message nothing more is told, neither `close()` nor the destructor returns, the third step of the first of them terminates the
program, and until then the owner is never blocked. -/
theorem C157_message_partial (x0 x1 x2 : XSt B) (h0 : XReach d x0) (b : Bool) (hm : Running x0.life (.live b) ∨ Running x0.life (.die b))
    (hs : xstep d x0 .throw = some x1) (acts : List (XAct B)) (hr : xrun d x1 acts = some x2) :
    callbacks x2.life.log = callbacks x0.life.log ∧ (∀ o ∈ x2.life.log, ¬ IsReturn o) ∧ acts.countP ownerMoves ≤ 3 ∧
    (acts.countP ownerMoves = 3 → x2.dead = true) ∧ (x2.dead = false → x2.life.o ≠ .idle → (xstep d x2 (.life .o)).isSome = true) := by
  have hinv := xreach_inv h0
  obtain ⟨hd0, n, hn, hcase⟩ := xthrow hs
  have hex : x0.exc = false := by
    cases he : x0.exc with
    | false => rfl
    | true => have := hinv.2 he; rw [hn] at this; cases this
  obtain ⟨hreach, hfit, hdf⟩ := hinv.1 hex
  obtain ⟨is, hI⟩ := inv_reachable hreach
  rcases hcase with ⟨⟨es, nx, rfl⟩, _⟩ | ⟨_, rfl⟩
  · exfalso
    obtain ⟨m, h1, e, rfl⟩ := hfit _ (.inl hn)
    rcases hm with hm | hm <;> (rw [hm.2] at h1; cases h1)
  · have hnf : x0.life.w ≠ .finished := by rw [hn]; intro h; cases h
    have hval : x0.life.valid = true := by
      cases hv : x0.life.valid with
      | true => rfl
      | false => exact absurd (hI.valid hv) hnf
    have hob : before x0.life.o = true := by
      cases ho : x0.life.o with
      | dtorFuture =>
        exfalso
        have := hdf ho
        rw [hval] at this; cases this
      | gone => exact absurd (hI.gone ho) hnf
      | _ => rfl
    have hret : ∀ o ∈ x0.life.log, ¬ IsReturn o := by
      intro o ho hr
      cases o with
      | closeRet b => have := hI.ret b ho; rw [hval] at this; cases this
      | dtorRet => exact absurd (hI.gone (hI.dret.1 ho)) hnf
      | _ => cases hr
    have hdoom : Doomed { x0 with life := { x0.life with w := .finished, fut := some false }, exc := true } := ⟨rfl, rfl, rfl, hval, hob, hret⟩
    obtain ⟨h1, h2, h3⟩ := doomed_run acts _ x2 hdoom hd0 hr
    have hle : ∀ o : OPc, ownerLeft o ≤ 3 := by
      intro o; cases o with
      | closing c => cases c <;> simp [ownerLeft]
      | dtorClosing c => cases c <;> simp [ownerLeft]
      | _ => simp [ownerLeft]
    have hx := hle x0.life.o
    refine ⟨h2, h1.ret, Nat.le_trans (Nat.le_trans (Nat.le_add_right _ _) h3) hx, ?_, ?_⟩
    · intro h4
      cases hd2 : x2.dead with
      | true => rfl
      | false =>
        exfalso
        rw [hd2, h4] at h3
        simp only [Bool.false_eq_true, if_false] at h3
        have h5 : ownerLeft x2.life.o = 0 := by
          have h6 : ownerLeft x0.life.o ≤ 3 := hx
          have h7 : 3 + ownerLeft x2.life.o ≤ ownerLeft x0.life.o := h3
          omega
        have hb2 := h1.o
        revert h5 hb2
        generalize x2.life.o = o
        cases o with
        | closing c => cases c <;> simp [ownerLeft]
        | dtorClosing c => cases c <;> simp [ownerLeft]
        | _ => simp [ownerLeft, before]
    · intro hd2 hni
      simp only [xstep, hd2, Bool.false_eq_true, if_false, h1.exc, Bool.true_and, Act.isO, Bool.and_true]
      split
      · rfl
      · rename_i hg
        have hb2 := h1.o
        have hv2 := h1.valid
        simp only [step, oStep]
        cases ho : x2.life.o with
        | idle => exact absurd ho hni
        | closing c => cases c <;> simp_all [closeStep, atGet]
        | dtorClosing c => cases c <;> simp_all [closeStep, atGet]
        | dtorFuture => rw [ho] at hb2; cases hb2
        | gone => rw [ho] at hb2; cases hb2

private def throwLive : List (XAct scanner) := [.life .w, .life .w, .life .w, .throw, .life .oClose, .life .o, .life .o, .life .o]

/-- C157 fails: a callback that throws at the live message ends the program in `close()`. -/
theorem C157_refuted : ¬ C157_full := by
  intro h
  obtain ⟨x, hx, hd⟩ : ∃ x, xrun true ({} : XSt scanner) throwLive = some x ∧ x.dead = true := ⟨_, rfl, rfl⟩
  have := (h scanner true x ⟨_, hx⟩).1
  rw [hd] at this; cases this

/-- A throw at the live message, as `C157_message_partial` asks for. -/
example : ∃ x0 x1 : XSt scanner, XReach true x0 ∧ Running x0.life (.live true) ∧ xstep true x0 .throw = some x1 :=
  ⟨_, _, ⟨throwLive.take 3, rfl⟩, ⟨⟨_, rfl⟩, rfl⟩, rfl⟩

private def emptyW : Warthog.World := ⟨.dir [] (some 9), fun _ => true⟩
private def fileW : Warthog.World := ⟨.dir [.plain ⟨b!"/w/f", true, some 3⟩] (some 9), fun _ => true⟩
private def throwEvent : List (XAct scanner) :=
  [.life .w, .life .w, .life .w, .life .cbReturn, .life (.sys emptyW), .life .w, .life .w, .life (.sys emptyW), .life .w, .life .w, .life (.sys fileW), .life .w]

/-- A throw at an event, as `C157_event_partial` asks for. -/
example : ∃ x0 x1 : XSt scanner, XReach true x0 ∧ Running x0.life (.ev ⟨b!"/w/f", .create, .file, none⟩) ∧ xstep true x0 .throw = some x1 :=
  ⟨_, _, ⟨throwEvent, rfl⟩, ⟨⟨_, rfl⟩, rfl⟩, rfl⟩

end Verif.Props
