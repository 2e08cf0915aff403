import Verif.Spec.MemoryDarwin
import Verif.Lemmas.DarwinLife
/-!
# What happens before what, on Darwin: C154
-/

namespace Verif.Props
open Verif Verif.Model Verif.Model.DLife Verif.Spec Verif.Spec.Mem Verif.Spec.MemDarwin Verif.Lemmas.DLife

variable {d : Bool}

/-! ### Traces that grow -/

private theorem get_snoc {t : List Step} {i : Nat} {x z : Step} (h : t[i]? = some z) : (t ++ [x])[i]? = some z := by
  rw [List.getElem?_append_left (List.getElem?_eq_some_iff.1 h).1]; exact h

private theorem get_last {t : List Step} {i : Nat} {x z : Step} (h : (t ++ [x])[i]? = some z) : t[i]? = some z ∨ (i = t.length ∧ z = x) := by
  rcases Nat.lt_or_ge i t.length with hlt | hge
  · rw [List.getElem?_append_left hlt] at h; exact .inl h
  · right
    rw [List.getElem?_append_right hge] at h
    have h0 : i - t.length = 0 := by
      have := (List.getElem?_eq_some_iff.1 h).1
      simp at this; omega
    rw [h0] at h
    simp at h
    exact ⟨by omega, h.symm⟩

private theorem hb_append {t u : List Step} {i j : Nat} (h : HB d t i j) : HB d (t ++ u) i j := by
  have g : ∀ {k : Nat} {z : Step}, t[k]? = some z → (t ++ u)[k]? = some z := by
    intro k z h
    rw [List.getElem?_append_left (List.getElem?_eq_some_iff.1 h).1]; exact h
  unfold HB at h ⊢
  induction h with
  | thread h1 h2 h3 h4 => exact .thread h1 (g h2) (g h3) h4
  | sync h1 h2 h3 h4 => exact .sync h1 (g h2) (g h3) h4
  | trans _ _ a b => exact .trans a b

/-- All calls and returns of callbacks so far happen before a step with a certain quality, or are it. -/
private def Dom (d : Bool) (t : List Step) (P : Step → Prop) : Prop :=
  (∀ (i : Nat) (x : Step), t[i]? = some x → ¬ x.calls d) ∨ ∃ (q : Nat) (z : Step), t[q]? = some z ∧ P z ∧ ∀ (i : Nat) (x : Step), t[i]? = some x → x.calls d → i = q ∨ HB d t i q

private theorem dom_keep {t : List Step} {P : Step → Prop} {x : Step} (h : Dom d t P) (hx : ¬ x.calls d) : Dom d (t ++ [x]) P := by
  rcases h with h | ⟨q, z, hq, hp, ha⟩
  · left
    intro i y hi
    rcases get_last hi with h' | ⟨_, rfl⟩
    · exact h i y h'
    · exact hx
  · right
    refine ⟨q, z, get_snoc hq, hp, ?_⟩
    intro i y hi hy
    rcases get_last hi with h' | ⟨_, rfl⟩
    · rcases ha i y h' hy with h | h
      · exact .inl h
      · exact .inr (hb_append h)
    · exact absurd hy hx

private theorem dom_reach {t : List Step} {P : Step → Prop} {x y : Step} {i : Nat} (h : Dom d t P) (hx : ∀ z, P z → z.thread d = x.thread d ∨ Sync d z x) (hi : t[i]? = some y) (hy : y.calls d) :
    HB d (t ++ [x]) i t.length := by
  rcases h with h | ⟨q, z, hq', hp, ha⟩
  · exact absurd hy (h i y hi)
  · have hl := (List.getElem?_eq_some_iff.1 hq').1
    have hqn : HB d (t ++ [x]) q t.length := by
      rcases hx z hp with h | h
      · exact .thread hl (get_snoc hq') (by simp) h
      · exact .sync hl (get_snoc hq') (by simp) h
    rcases ha i y hi hy with rfl | h
    · exact hqn
    · exact .trans (hb_append h) hqn

private theorem dom_new {t : List Step} {P Q : Step → Prop} {x : Step} (h : Dom d t P) (hx : ∀ z, P z → z.thread d = x.thread d ∨ Sync d z x) (hq : Q x) : Dom d (t ++ [x]) Q := by
  right
  refine ⟨t.length, x, by simp, hq, ?_⟩
  intro i y hi hy
  rcases get_last hi with h' | ⟨rfl, _⟩
  · right
    rcases h with h | ⟨q, z, hq', hp, ha⟩
    · exact absurd hy (h i y h')
    · have hl := (List.getElem?_eq_some_iff.1 hq').1
      have hqn : HB d (t ++ [x]) q t.length := by
        rcases hx z hp with h | h
        · exact .thread hl (get_snoc hq') (by simp) h
        · exact .sync hl (get_snoc hq') (by simp) h
      rcases ha i y h' hy with rfl | h
      · exact hqn
      · exact .trans (hb_append h) hqn
  · exact .inl rfl

/-- Whose turn it is to call callbacks. -/
private structure T (d : Bool) (t : List Step) (s : St) : Prop where
  busy : s.k ≠ .free → Dom d t (fun z => z.thread d = .call s.taken.length)
  opn : s.k = .free → s.stream = true → isFlush s.w = false → Dom d t (fun z => z.act = .opened true ∨ (z.act = .k ∧ z.before.k = .handling [] []))
  wrk : s.k = .free → (s.stream = false ∨ isFlush s.w = true) → Dom d t (fun z => z.thread d = .worker)

private theorem t_other {t : List Step} {s s' : St} {a : Act} (ht : T d t s) (h1 : s'.k = s.k) (h2 : s'.stream = s.stream) (h3 : s'.w = s.w) (h4 : s'.taken = s.taken)
    (hx : ¬ Step.calls d ⟨s, a⟩) : T d (t ++ [⟨s, a⟩]) s' := by
  refine ⟨?_, ?_, ?_⟩
  · rw [h1, h4]; exact fun h => dom_keep (ht.busy h) hx
  · rw [h1, h2, h3]; exact fun a b c => dom_keep (ht.opn a b c) hx
  · rw [h1, h2, h3]; exact fun a b => dom_keep (ht.wrk a b) hx

private theorem quietStep {s s' : St} {a : Act} (h : step true d s a = some s') (h1 : ∀ m, s'.log ≠ s.log ++ [.cb m]) (h2 : s'.log ≠ s.log ++ [.cbRet]) : ¬ Step.calls d ⟨s, a⟩ := by
  rintro ⟨s1, hs, hl⟩
  rw [h] at hs
  cases hs
  rcases hl with ⟨m, hl⟩ | hl
  · exact h1 m hl
  · exact h2 hl

private theorem closeStep_frame {s s' : St} {c : ClosePc} {r} (h : closeStep s c = some (s', r)) :
    s'.log = s.log ∧ s'.w = s.w ∧ s'.o = s.o ∧ s'.fut = s.fut ∧ s'.k = s.k ∧ s'.stream = s.stream ∧ s'.taken = s.taken ∧ (s'.valid = s.valid ∨ (c = .get ∧ s.fut ≠ none)) ∧
    (∀ b, r = .inr b → s.valid = false ∨ (c = .get ∧ s.fut ≠ none)) := by
  cases c <;> simp only [closeStep] at h
  · split at h <;> cases h <;> exact ⟨rfl, rfl, rfl, rfl, rfl, rfl, rfl, .inl rfl, fun b hb => by cases hb⟩
  · cases h; exact ⟨rfl, rfl, rfl, rfl, rfl, rfl, rfl, .inl rfl, fun b hb => by cases hb⟩
  · split at h
    · cases h; exact ⟨rfl, rfl, rfl, rfl, rfl, rfl, rfl, .inl rfl, fun b hb => by cases hb⟩
    · rename_i hv; cases h; exact ⟨rfl, rfl, rfl, rfl, rfl, rfl, rfl, .inl rfl, fun b hb => .inl (by simpa using hv)⟩
  · split at h
    · cases h
    · rename_i hf; cases h; exact ⟨rfl, rfl, rfl, rfl, rfl, rfl, rfl, .inr ⟨rfl, by rw [hf]; simp⟩, fun b _ => .inr ⟨rfl, by rw [hf]; simp⟩⟩

/-- Steps of the owner. -/
private theorem owner_frame {s s' : St} {a : Act} (h : step true d s a = some s') (hw : Step.thread d ⟨s, a⟩ = .owner) :
    s'.w = s.w ∧ s'.k = s.k ∧ s'.stream = s.stream ∧ s'.taken = s.taken ∧ s'.fut = s.fut ∧ (s'.valid = s.valid ∨ (s.fut ≠ none ∧ Step.obtains ⟨s, a⟩)) ∧
    (((∃ b, s'.log = s.log ++ [.closeRet b]) ∨ s'.log = s.log ++ [.dtorRet]) → s.valid = false ∨ (s.fut ≠ none ∧ Step.obtains ⟨s, a⟩)) ∧
    ¬ Step.calls d ⟨s, a⟩ := by
  cases a with
  | o =>
    have h0 := h
    simp only [step] at h
    cases hs : s.o with
    | idle => simp only [oStep, hs] at h; cases h
    | gone => simp only [oStep, hs] at h; cases h
    | dtorFuture =>
      simp only [oStep, hs] at h
      split at h
      · rename_i hv
        split at h
        · cases h
        · rename_i b hf
          cases h
          exact ⟨rfl, rfl, rfl, rfl, rfl, .inl rfl, fun _ => .inr ⟨by rw [hf]; simp, rfl, .inr (.inr ⟨hs, hv⟩)⟩, quietStep h0 (by simp) (by simp)⟩
      · rename_i hv
        cases h
        exact ⟨rfl, rfl, rfl, rfl, rfl, .inl rfl, fun _ => .inl (by simpa using hv), quietStep h0 (by simp) (by simp)⟩
    | closing c =>
      simp only [oStep, hs] at h
      cases hc : closeStep s c with
      | none => rw [hc] at h; cases h
      | some r =>
        obtain ⟨s1, r⟩ := r
        obtain ⟨f1, f2, f3, f4, f5, f6, f7, f8, f9⟩ := closeStep_frame hc
        have hval : s1.valid = s.valid ∨ (s.fut ≠ none ∧ Step.obtains ⟨s, .o⟩) := by
          rcases f8 with h | ⟨rfl, h'⟩
          · exact .inl h
          · exact .inr ⟨h', rfl, .inl hs⟩
        rw [hc] at h
        cases r with
        | inl c' => cases h; exact ⟨f2, f5, f6, f7, f4, hval, fun ho => by rcases ho with ⟨b, ho⟩ | ho <;> simp [f1] at ho, quietStep h0 (by simp [f1]) (by simp [f1])⟩
        | inr b =>
          cases h
          refine ⟨f2, f5, f6, f7, f4, hval, fun _ => ?_, quietStep h0 (by simp [f1]) (by simp [f1])⟩
          rcases f9 b rfl with h | ⟨rfl, h⟩
          · exact .inl h
          · exact .inr ⟨h, rfl, .inl hs⟩
    | dtorClosing c =>
      simp only [oStep, hs] at h
      cases hc : closeStep s c with
      | none => rw [hc] at h; cases h
      | some r =>
        obtain ⟨s1, r⟩ := r
        obtain ⟨f1, f2, f3, f4, f5, f6, f7, f8, f9⟩ := closeStep_frame hc
        have hval : s1.valid = s.valid ∨ (s.fut ≠ none ∧ Step.obtains ⟨s, .o⟩) := by
          rcases f8 with h | ⟨rfl, h'⟩
          · exact .inl h
          · exact .inr ⟨h', rfl, .inr (.inl hs)⟩
        rw [hc] at h
        cases r <;> cases h <;>
          exact ⟨f2, f5, f6, f7, f4, hval, fun ho => by rcases ho with ⟨b, ho⟩ | ho <;> simp [f1] at ho, quietStep h0 (by simp [f1]) (by simp [f1])⟩
  | oClose =>
    have h0 := h
    simp only [step] at h
    split at h
    · cases h
      exact ⟨rfl, rfl, rfl, rfl, rfl, .inl rfl, fun ho => by rcases ho with ⟨b, ho⟩ | ho <;> simp at ho, quietStep h0 (by simp) (by simp)⟩
    · cases h
  | oDtor =>
    have h0 := h
    simp only [step] at h
    split at h
    · cases h
      exact ⟨rfl, rfl, rfl, rfl, rfl, .inl rfl, fun ho => by rcases ho with ⟨b, ho⟩ | ho <;> simp at ho, quietStep h0 (by simp) (by simp)⟩
    · cases h
  | tryLock i => simp only [Step.thread] at hw; split at hw <;> cases hw
  | _ => cases hw

/-- Steps of the system outside the mutex. -/
private theorem system_frame {s s' : St} {a : Act} (h : step true d s a = some s') (hw : Step.thread d ⟨s, a⟩ = .system) :
    s'.w = s.w ∧ s'.k = s.k ∧ s'.stream = s.stream ∧ s'.taken = s.taken ∧ s'.fut = s.fut ∧ s'.valid = s.valid ∧ s'.log = s.log := by
  have h0 := h
  cases a with
  | notify b =>
    simp only [step] at h
    split at h <;> cases h
    exact ⟨rfl, rfl, rfl, rfl, rfl, rfl, rfl⟩
  | enter =>
    simp only [step] at h
    split at h
    · cases h
    · split at h <;> cases h
      exact ⟨rfl, rfl, rfl, rfl, rfl, rfl, rfl⟩
  | tryLock i =>
    simp only [step] at h
    split at h
    · cases h
    · split at h
      · cases h; exact ⟨rfl, rfl, rfl, rfl, rfl, rfl, rfl⟩
      · split at h
        · cases h; exact ⟨rfl, rfl, rfl, rfl, rfl, rfl, rfl⟩
        · cases h
          exfalso
          have : Step.enters d ⟨s, .tryLock i⟩ = true := by simp [Step.enters, h0]
          simp [Step.thread, this] at hw
  | _ => cases hw

/-- Steps of the watching thread. -/
private theorem worker_frame {s s' : St} {a : Act} (hc : Ctl s) (h : step true d s a = some s') (hw : Step.thread d ⟨s, a⟩ = .worker) :
    s.w ≠ .finished ∧ s'.k = s.k ∧ s'.taken = s.taken ∧ s'.valid = s.valid ∧ (s'.fut = s.fut ∨ (Step.publishes ⟨s, a⟩ ∧ s'.w = .finished)) ∧
    ((s.stream = true ∧ isFlush s.w = false ∧ s'.stream = true ∧ isFlush s'.w = false ∧ s'.log = s.log) ∨
     (s.stream = true ∧ isFlush s.w = false ∧ s'.stream = true ∧ isFlush s'.w = true ∧ s.k = .free ∧ Step.locks d ⟨s, a⟩) ∨
     (s.stream = false ∧ s'.stream = true ∧ isFlush s'.w = false ∧ a = .opened true ∧ s.k = .free) ∨
     ((s.stream = false ∨ isFlush s.w = true) ∧ s'.stream = false ∧ s.k = .free)) ∧
    (∀ b, s'.log ≠ s.log ++ [.closeRet b]) ∧ s'.log ≠ s.log ++ [.dtorRet] := by
  have hq := hc.quiet
  have hi := hc.inw
  have hfl := hc.fl
  have hfin := hc.fin
  have nv : ∀ (c : ClosePc) (s1 : St) r, closeStep s c = some (s1, r) → s.w ≠ .finished → s1.valid = s.valid := by
    intro c s1 r hcs hn
    rcases (closeStep_frame hcs).2.2.2.2.2.2.2.1 with h | ⟨_, h⟩
    · exact h
    · exfalso
      apply hn
      apply hfin.1
      cases hf : s.fut with
      | none => exact absurd hf h
      | some b => rfl
  cases a with
  | w =>
    simp only [step] at h
    cases hs : s.w with
    | liveClose c p =>
      simp only [wStep, hs] at h
      cases hcs : closeStep s c with
      | none => rw [hcs] at h; cases h
      | some r =>
        obtain ⟨s1, r⟩ := r
        obtain ⟨f1, f2, f3, f4, f5, f6, f7, f8, f9⟩ := closeStep_frame hcs
        have := nv _ _ _ hcs (by rw [hs]; simp)
        rw [hcs] at h
        have hst : s.stream = false := by
          cases hb : s.stream with
          | false => rfl
          | true => have := hi hb; rw [hs] at this; cases this
        cases r <;> cases h <;>
          exact ⟨by simp, f5, f7, this, .inl f4, .inr (.inr (.inr ⟨.inl hst, by rw [← hst]; exact f6, (hq hst).1⟩)), by simp [f1], by simp [f1]⟩
    | dieClose c p q =>
      simp only [wStep, hs] at h
      cases hcs : closeStep s c with
      | none => rw [hcs] at h; cases h
      | some r =>
        obtain ⟨s1, r⟩ := r
        obtain ⟨f1, f2, f3, f4, f5, f6, f7, f8, f9⟩ := closeStep_frame hcs
        have := nv _ _ _ hcs (by rw [hs]; simp)
        rw [hcs] at h
        have hst : s.stream = false := by
          cases hb : s.stream with
          | false => rfl
          | true => have := hi hb; rw [hs] at this; cases this
        cases r <;> cases h <;>
          exact ⟨by simp, f5, f7, this, .inl f4, .inr (.inr (.inr ⟨.inl hst, by rw [← hst]; exact f6, (hq hst).1⟩)), by simp [f1], by simp [f1]⟩
    | close ok =>
      simp only [wStep, hs] at h
      split at h
      · rename_i hst
        cases h
        exact ⟨by simp, rfl, rfl, rfl, .inl rfl, .inr (.inr (.inr ⟨.inl hst, hst, (hq hst).1⟩)), by simp, by simp⟩
      · rename_i hst
        split at h
        · cases h
        · rename_i hl
          cases h
          have hst : s.stream = true := by simpa using hst
          have hk : s.k = .free := by
            simp [St.locked] at hl
            exact hl.1
          exact ⟨by simp, rfl, rfl, rfl, .inl rfl, .inr (.inl ⟨hst, rfl, hst, rfl, hk, .inr ⟨rfl, hst, ok, hs⟩⟩), by simp, by simp⟩
    | flush ok =>
      simp only [wStep, hs] at h
      split at h
      · cases h
        exact ⟨by simp, rfl, rfl, rfl, .inl rfl, .inr (.inr (.inr ⟨.inr rfl, rfl, (hfl (by rw [hs]; rfl)).1⟩)), by simp, by simp⟩
      · cases h
    | ask =>
      simp only [wStep, hs] at h
      cases h
      cases hst : s.stream with
      | true => exact ⟨by simp, rfl, rfl, rfl, .inl rfl, .inl ⟨rfl, rfl, rfl, by simp only; split <;> rfl, rfl⟩, by simp, by simp⟩
      | false => exact ⟨by simp, rfl, rfl, rfl, .inl rfl, .inr (.inr (.inr ⟨.inl rfl, rfl, (hq hst).1⟩)), by simp, by simp⟩
    | sleep =>
      simp only [wStep, hs] at h
      split at h
      · cases h
      · cases h
        cases hst : s.stream with
        | true => exact ⟨by simp, rfl, rfl, rfl, .inl rfl, .inl ⟨rfl, rfl, rfl, rfl, rfl⟩, by simp, by simp⟩
        | false => exact ⟨by simp, rfl, rfl, rfl, .inl rfl, .inr (.inr (.inr ⟨.inl rfl, rfl, (hq hst).1⟩)), by simp, by simp⟩
    | setFut r =>
      simp only [wStep, hs] at h
      cases h
      have hst : s.stream = false := by
        cases hb : s.stream with
        | false => rfl
        | true => have := hi hb; rw [hs] at this; cases this
      exact ⟨by simp, rfl, rfl, rfl, .inr ⟨⟨rfl, r, hs⟩, rfl⟩, .inr (.inr (.inr ⟨.inl hst, hst, (hq hst).1⟩)), by simp, by simp⟩
    | _ =>
      simp only [wStep, hs] at h <;> cases h <;>
      (have hst : s.stream = false := by
        cases hb : s.stream with
        | false => rfl
        | true => have := hi hb; rw [hs] at this; cases this
       exact ⟨by simp, rfl, rfl, rfl, .inl rfl, .inr (.inr (.inr ⟨.inl hst, hst, (hq hst).1⟩)), by simp, by simp⟩)
  | opened ok =>
    simp only [step] at h
    split at h
    · rename_i hs
      cases h
      have hst : s.stream = false := by
        cases hb : s.stream with
        | false => rfl
        | true => have := hi hb; rw [hs] at this; cases this
      cases ok with
      | true => exact ⟨by rw [hs]; simp, rfl, rfl, rfl, .inl rfl, .inr (.inr (.inl ⟨hst, rfl, rfl, rfl, (hq hst).1⟩)), by simp, by simp⟩
      | false => exact ⟨by rw [hs]; simp, rfl, rfl, rfl, .inl rfl, .inr (.inr (.inr ⟨.inl hst, rfl, (hq hst).1⟩)), by simp, by simp⟩
    · cases h
  | cbReturn =>
    simp only [step] at h
    split at h
    · rename_i hs
      cases h
      have hst : s.stream = false := by
        cases hb : s.stream with
        | false => rfl
        | true => have := hi hb; rw [hs] at this; cases this
      exact ⟨by rw [hs]; simp, rfl, rfl, rfl, .inl rfl, .inr (.inr (.inr ⟨.inl hst, hst, (hq hst).1⟩)), by simp, by simp⟩
    · rename_i hs
      cases h
      have hst : s.stream = false := by
        cases hb : s.stream with
        | false => rfl
        | true => have := hi hb; rw [hs] at this; cases this
      exact ⟨by rw [hs]; simp, rfl, rfl, rfl, .inl rfl, .inr (.inr (.inr ⟨.inl hst, hst, (hq hst).1⟩)), by simp, by simp⟩
    · cases h
  | cbClose =>
    simp only [step] at h
    split at h
    · rename_i hs
      cases h
      have hst : s.stream = false := by
        cases hb : s.stream with
        | false => rfl
        | true => have := hi hb; rw [hs] at this; cases this
      exact ⟨by rw [hs]; simp, rfl, rfl, rfl, .inl rfl, .inr (.inr (.inr ⟨.inl hst, hst, (hq hst).1⟩)), by simp, by simp⟩
    · rename_i hs
      cases h
      have hst : s.stream = false := by
        cases hb : s.stream with
        | false => rfl
        | true => have := hi hb; rw [hs] at this; cases this
      exact ⟨by rw [hs]; simp, rfl, rfl, rfl, .inl rfl, .inr (.inr (.inr ⟨.inl hst, hst, (hq hst).1⟩)), by simp, by simp⟩
    · cases h
  | tryLock i => simp only [Step.thread] at hw; split at hw <;> cases hw
  | _ => cases hw

/-- Steps of a call of `event_recv` that has the mutex, or gets it. -/
private theorem call_frame {s s' : St} {a : Act} {n : Nat} (hc : Ctl s) (h : step true d s a = some s') (hw : Step.thread d ⟨s, a⟩ = .call n) :
    s'.w = s.w ∧ s'.stream = s.stream ∧ s'.fut = s.fut ∧ s'.valid = s.valid ∧ s.stream = true ∧ isFlush s.w = false ∧ s'.taken.length = n ∧
    ((s.k = .free ∧ Step.enters d ⟨s, a⟩ = true ∧ s'.k ≠ .free ∧ ∃ i, a = .tryLock i) ∨
     (s.k ≠ .free ∧ s.taken.length = n ∧ (s'.k ≠ .free ∨ (a = .k ∧ s.k = .handling [] [] ∧ s'.k = .free)))) ∧
    (∀ b, s'.log ≠ s.log ++ [.closeRet b]) ∧ s'.log ≠ s.log ++ [.dtorRet] := by
  have hkf : s.k ≠ .free → s.stream = true ∧ isFlush s.w = false := by
    intro hk
    refine ⟨?_, ?_⟩
    · cases hb : s.stream with
      | true => rfl
      | false => exact absurd (hc.quiet hb).1 hk
    · cases hb : isFlush s.w with
      | false => rfl
      | true => exact absurd (hc.fl hb).1 hk
  have h0 := h
  cases a with
  | k =>
    simp only [Step.thread, Thread.call.injEq] at hw
    simp only [step] at h
    cases hs : s.k with
    | free => simp only [kStep, hs] at h; cases h
    | inCb es ns => simp only [kStep, hs] at h; cases h
    | handling es ns =>
      obtain ⟨g1, g2⟩ := hkf (by rw [hs]; simp)
      cases es with
      | cons e es =>
        simp only [kStep, hs] at h; cases h
        exact ⟨rfl, rfl, rfl, rfl, g1, g2, hw, .inr ⟨by simp, hw, .inl (by simp)⟩, by simp, by simp⟩
      | nil =>
        cases ns with
        | cons n ns =>
          simp only [kStep, hs] at h; cases h
          exact ⟨rfl, rfl, rfl, rfl, g1, g2, hw, .inr ⟨by simp, hw, .inl (by simp)⟩, by simp, by simp⟩
        | nil =>
          simp only [kStep, hs] at h; cases h
          exact ⟨rfl, rfl, rfl, rfl, g1, g2, hw, .inr ⟨by simp, hw, .inr ⟨rfl, rfl, rfl⟩⟩, by simp, by simp⟩
    | selfClose c es ns =>
      obtain ⟨g1, g2⟩ := hkf (by rw [hs]; simp)
      simp only [kStep, hs] at h
      cases hcs : closeStep s c with
      | none => rw [hcs] at h; cases h
      | some r =>
        obtain ⟨s1, r⟩ := r
        obtain ⟨f1, f2, f3, f4, f5, f6, f7, f8, f9⟩ := closeStep_frame hcs
        have hv : s1.valid = s.valid := by
          rcases f8 with h | ⟨_, h⟩
          · exact h
          · exfalso
            have : s.w = .finished := hc.fin.1 (by
              cases hf : s.fut with
              | none => exact absurd hf h
              | some b => rfl)
            have h2 := hc.inw g1
            rw [this] at h2
            cases h2
        rw [hcs] at h
        cases r <;> cases h <;>
          exact ⟨f2, f6, f4, hv, g1, g2, by rw [← hw]; simp [f7], .inr ⟨by simp, hw, .inl (by simp)⟩, by simp [f1], by simp [f1]⟩
  | kReturn =>
    simp only [Step.thread, Thread.call.injEq] at hw
    simp only [step] at h
    split at h
    · rename_i hs
      obtain ⟨g1, g2⟩ := hkf (by rw [hs]; simp)
      cases h
      exact ⟨rfl, rfl, rfl, rfl, g1, g2, hw, .inr ⟨by rw [hs]; simp, hw, .inl (by simp)⟩, by simp, by simp⟩
    · cases h
  | kClose =>
    simp only [Step.thread, Thread.call.injEq] at hw
    simp only [step] at h
    split at h
    · rename_i hs
      obtain ⟨g1, g2⟩ := hkf (by rw [hs]; simp)
      cases h
      exact ⟨rfl, rfl, rfl, rfl, g1, g2, hw, .inr ⟨by rw [hs]; simp, hw, .inl (by simp)⟩, by simp, by simp⟩
    · cases h
  | tryLock i =>
    simp only [Step.thread] at hw
    split at hw
    · rename_i he
      simp only [Thread.call.injEq] at hw
      simp only [step] at h
      split at h
      · cases h
      · rename_i b hb
        have hst : s.stream = true := by
          cases hst : s.stream with
          | true => rfl
          | false => rw [(hc.quiet hst).2.2] at hb; simp at hb
        split at h
        · cases h; simp [Step.enters, h0] at he
        · split at h
          · cases h; simp [Step.enters, h0] at he
          · rename_i hl
            cases h
            simp [St.locked] at hl
            have hfw : isFlush s.w = false := by
              cases hfb : isFlush s.w with
              | false => rfl
              | true =>
                exfalso
                cases hsw : s.w <;> simp [hsw, isFlush] at hfb
                rw [hsw] at hl
                simp at hl
            exact ⟨rfl, rfl, rfl, rfl, hst, hfw, by simp; exact hw, .inl ⟨hl.1, he, by simp, i, rfl⟩, by simp, by simp⟩
    · cases hw
  | _ => cases hw

private theorem t_step {t : List Step} {s s' : St} {a : Act} (hc : Ctl s) (ht : T d t s) (h : step true d s a = some s') : T d (t ++ [⟨s, a⟩]) s' := by
  cases hw : Step.thread d ⟨s, a⟩ with
  | owner =>
    obtain ⟨f1, f2, f3, f4, _, _, _, f8⟩ := owner_frame h hw
    exact t_other ht f2 f3 f1 f4 f8
  | system =>
    obtain ⟨f1, f2, f3, f4, _, _, f7⟩ := system_frame h hw
    exact t_other ht f2 f3 f1 f4 (quietStep h (by simp [f7]) (by simp [f7]))
  | worker =>
    obtain ⟨_, f2, f3, _, _, f6, _⟩ := worker_frame hc h hw
    rcases f6 with ⟨g1, g2, g3, g4, g5⟩ | ⟨g1, g2, g3, g4, g5, g6⟩ | ⟨g1, g2, g3, g4, g5⟩ | ⟨g1, g2, g3⟩
    · have hx := quietStep h (by simp [g5]) (by simp [g5])
      refine ⟨?_, ?_, ?_⟩
      · rw [f2, f3]; exact fun h => dom_keep (ht.busy h) hx
      · rw [f2]; exact fun a _ _ => dom_keep (ht.opn a g1 g2) hx
      · rw [g3, g4]; exact fun _ h => by rcases h with h | h <;> cases h
    · refine ⟨fun hk => absurd g5 (by rw [← f2]; exact hk), fun _ _ hf => (by rw [g4] at hf; cases hf), fun _ _ => ?_⟩
      refine dom_new (ht.opn g5 g1 g2) ?_ hw
      rintro z (hz | hz)
      · left; rw [hw]; simp [Step.thread, hz]
      · exact .inr (.inr (.inl ⟨.inl hz, g6⟩))
    · refine ⟨fun hk => absurd g5 (by rw [← f2]; exact hk), fun _ _ _ => ?_, fun _ hf => by rcases hf with hf | hf <;> simp_all⟩
      exact dom_new (ht.wrk g5 (.inl g1)) (fun z hz => .inl (by rw [hz, hw])) (.inl g4)
    · refine ⟨fun hk => absurd g3 (by rw [← f2]; exact hk), fun _ hs => (by rw [g2] at hs; cases hs), fun _ _ => ?_⟩
      exact dom_new (ht.wrk g3 g1) (fun z hz => .inl (by rw [hz, hw])) hw
  | call n =>
    obtain ⟨f1, f2, _, _, f5, f6, f7, f8, _⟩ := call_frame hc h hw
    rcases f8 with ⟨g1, g2, g3, i, g4⟩ | ⟨g1, g2, g3⟩
    · refine ⟨fun _ => ?_, fun hk => absurd hk g3, fun hk => absurd hk g3⟩
      refine dom_new (ht.opn g1 f5 f6) ?_ (by rw [f7]; exact hw)
      rintro z (hz | hz)
      · exact .inr (.inr (.inr ⟨hz, i, g4⟩))
      · exact .inr (.inr (.inl ⟨.inl hz, .inl g2⟩))
    · have hb := ht.busy g1
      rw [g2] at hb
      refine ⟨fun hk => ?_, fun hk _ _ => ?_, fun _ hf => ?_⟩
      · exact dom_new hb (fun z hz => .inl (by rw [hz, hw])) (by rw [f7]; exact hw)
      · rcases g3 with h | ⟨h1, h2, _⟩
        · exact absurd hk h
        · exact dom_new hb (fun z hz => .inl (by rw [hz, hw])) (.inr ⟨h1, h2⟩)
      · rw [f2, f1] at hf; rcases hf with hf | hf <;> simp_all

/-- All steps of the watching thread have a number up to `k`, with which its result is set. -/
private def Pub (d : Bool) (t : List Step) (k : Nat) : Prop := (∃ x : Step, t[k]? = some x ∧ x.publishes) ∧ ∀ (i : Nat) (y : Step), t[i]? = some y → y.thread d = .worker → i ≤ k

private structure J (d : Bool) (t : List Step) (s : St) : Prop where
  ctl : Ctl s
  tok : T d t s
  fin : s.fut ≠ none → s.w = .finished ∧ ∃ k, Pub d t k
  got : s.valid = false → s.fut ≠ none ∧ ∃ (k l : Nat) (y : Step), Pub d t k ∧ k < l ∧ t[l]? = some y ∧ y.obtains

private theorem pub_lt {t : List Step} {k : Nat} (h : Pub d t k) : k < t.length := by
  obtain ⟨⟨x, hx, _⟩, _⟩ := h
  exact (List.getElem?_eq_some_iff.1 hx).1

private theorem pub_snoc {t : List Step} {k : Nat} {x : Step} (h : Pub d t k) (hx : x.thread d ≠ .worker) : Pub d (t ++ [x]) k := by
  obtain ⟨⟨y, hy, hp⟩, ha⟩ := h
  refine ⟨⟨y, get_snoc hy, hp⟩, ?_⟩
  intro i z hi hz
  rcases get_last hi with h | ⟨_, rfl⟩
  · exact ha i z h hz
  · exact absurd hz hx

private theorem j_step {t : List Step} {s s' : St} {a : Act} (hj : J d t s) (h : step true d s a = some s') : J d (t ++ [⟨s, a⟩]) s' := by
  have hctl := ctl_step hj.ctl h
  have htok := t_step hj.ctl hj.tok h
  have keep : s'.w = s.w → s'.fut = s.fut → Step.thread d ⟨s, a⟩ ≠ .worker → (s'.valid = s.valid ∨ (s.fut ≠ none ∧ Step.obtains ⟨s, a⟩)) → J d (t ++ [⟨s, a⟩]) s' := by
    intro f1 f3 hw f4
    refine ⟨hctl, htok, ?_, ?_⟩
    · intro hne
      rw [f3] at hne
      obtain ⟨hfin, k, hk⟩ := hj.fin hne
      exact ⟨by rw [f1]; exact hfin, k, pub_snoc hk hw⟩
    · intro hg
      rcases f4 with h | h
      · obtain ⟨hne, k, l, y, hk, hkl, hl, ho⟩ := hj.got (by rw [← h]; exact hg)
        exact ⟨by rw [f3]; exact hne, k, l, y, pub_snoc hk hw, hkl, get_snoc hl, ho⟩
      · obtain ⟨_, k, hk⟩ := hj.fin h.1
        exact ⟨by rw [f3]; exact h.1, k, t.length, _, pub_snoc hk hw, pub_lt hk, by simp, h.2⟩
  cases hw : Step.thread d ⟨s, a⟩ with
  | owner =>
    obtain ⟨f1, _, _, _, f5, f6, _⟩ := owner_frame h hw
    exact keep f1 f5 (by rw [hw]; simp) f6
  | system =>
    obtain ⟨f1, _, _, _, f5, f6, _⟩ := system_frame h hw
    exact keep f1 f5 (by rw [hw]; simp) (.inl f6)
  | call n =>
    obtain ⟨f1, _, f5, f6, _⟩ := call_frame hj.ctl h hw
    exact keep f1 f5 (by rw [hw]; simp) (.inl f6)
  | worker =>
    obtain ⟨f1, f2, f3, f4, f5, _⟩ := worker_frame hj.ctl h hw
    have hn : s.fut = none := by
      cases hfut : s.fut with
      | none => rfl
      | some b => exact absurd (hj.fin (by rw [hfut]; simp)).1 f1
    refine ⟨hctl, htok, ?_, ?_⟩
    · intro hne
      rcases f5 with h | h
      · rw [h] at hne; exact absurd hn hne
      · refine ⟨h.2, t.length, ⟨⟨_, by simp, h.1⟩, ?_⟩⟩
        intro i y hi _
        have := (List.getElem?_eq_some_iff.1 hi).1
        simp at this; omega
    · intro hg
      rw [f4] at hg
      exact absurd hn (hj.got hg).1

private theorem j_run (acts : List Act) : ∀ (t : List Step) (s s' : St), J d t s → run true d s acts = some s' → J d (t ++ trace d s acts) s' := by
  induction acts with
  | nil => intro t s s' hj h; simp only [run] at h; cases h; simpa [trace] using hj
  | cons a as ih =>
    intro t s s' hj h
    simp only [run] at h
    simp only [trace]
    split at h
    · cases h
    · rename_i s1 h1
      have := ih _ s1 s' (j_step hj h1) h
      simpa [h1] using this

private theorem j_init : J d [] {} :=
  ⟨ctl_init, ⟨fun _ => .inl (by simp), fun _ _ _ => .inl (by simp), fun _ _ => .inl (by simp)⟩, fun h => absurd rfl h, fun h => by cases h⟩

/-- Cut a schedule before its step with number `j`. -/
private theorem cut (acts : List Act) : ∀ (s s' : St) (j : Nat) (y : Step), run true d s acts = some s' → (trace d s acts)[j]? = some y →
    ∃ pre post s1, acts = pre ++ y.act :: post ∧ run true d s pre = some y.before ∧ pre.length = j ∧ step true d y.before y.act = some s1 ∧ run true d s1 post = some s' ∧
      trace d s acts = trace d s pre ++ y :: trace d s1 post ∧ (trace d s pre).length = j := by
  induction acts with
  | nil => intro s s' j y _ h; simp [trace] at h
  | cons a as ih =>
    intro s s' j y h hj
    simp only [run] at h
    simp only [trace] at hj
    cases h1 : step true d s a with
    | none => rw [h1] at h; cases h
    | some s1 =>
      rw [h1] at h hj
      simp only at h hj
      cases j with
      | zero =>
        simp at hj
        subst hj
        exact ⟨[], as, s1, rfl, rfl, rfl, h1, h, by simp [trace, h1], rfl⟩
      | succ j =>
        simp at hj
        obtain ⟨pre, post, s2, e1, e2, e3, e4, e5, e6, e7⟩ := ih s1 s' j y h hj
        refine ⟨a :: pre, post, s2, by rw [e1]; rfl, by simp only [run, h1]; exact e2, by simp [e3], e4, e5, ?_, by simp only [trace, h1, List.length_cons, e7]⟩
        simp only [trace, h1, List.cons_append, e6]

private theorem finished_quiet (acts : List Act) : ∀ (s s' : St), Ctl s → s.w = .finished → run true d s acts = some s' → ∀ x ∈ trace d s acts, ¬ x.calls d := by
  induction acts with
  | nil => intro s s' _ _ _ x hx; simp [trace] at hx
  | cons a as ih =>
    intro s s' hc hs h x hx
    simp only [run] at h
    cases h1 : step true d s a with
    | none => rw [h1] at h; cases h
    | some s1 =>
      rw [h1] at h
      have hq : ¬ Step.calls d ⟨s, a⟩ ∧ s1.w = s.w := by
        cases hw : Step.thread d ⟨s, a⟩ with
        | worker => exact absurd hs (worker_frame hc h1 hw).1
        | owner => have := owner_frame h1 hw; exact ⟨this.2.2.2.2.2.2.2, this.1⟩
        | system =>
          obtain ⟨f1, _, _, _, _, _, f7⟩ := system_frame h1 hw
          exact ⟨quietStep h1 (by simp [f7]) (by simp [f7]), f1⟩
        | call n =>
          exfalso
          have h2 := hc.inw (call_frame hc h1 hw).2.2.2.2.1
          rw [hs] at h2
          cases h2
      simp only [trace, h1, List.mem_cons] at hx
      rcases hx with rfl | hx
      · exact hq.1
      · exact ih s1 s' (ctl_step hc h1) (by rw [hq.2]; exact hs) h x hx

/-- C154: when a `close()`, with whichever answer, or the destructor has returned, everything the callback ever does happened before. -/
theorem C154_end (d : Bool) (acts : List Act) (s : St) (hr : run true d {} acts = some s)
    (j : Nat) (y : Step) (hj : (trace d {} acts)[j]? = some y) (hc : y.ends d) : AllBefore d (trace d {} acts) j := by
  obtain ⟨pre, post, s1, e1, e2, e3, e4, e5, e6, e7⟩ := cut acts _ _ _ _ hr hj
  have hJ : J d (trace d {} pre) y.before := by simpa using j_run pre [] _ _ j_init e2
  obtain ⟨s', hs, hl⟩ := hc
  have hy : y.thread d = .owner := by
    cases hw : y.thread d with
    | owner => rfl
    | worker => have := (worker_frame hJ.ctl hs hw).2.2.2.2.2.2; rcases hl with ⟨b, hl⟩ | hl; exact absurd hl (this.1 b); exact absurd hl this.2
    | call n => have := (call_frame hJ.ctl hs hw).2.2.2.2.2.2.2.2; rcases hl with ⟨b, hl⟩ | hl; exact absurd hl (this.1 b); exact absurd hl this.2
    | system => have := (system_frame hs hw).2.2.2.2.2.2; rw [this] at hl; simp at hl
  have hd := (owner_frame hs hy).2.2.2.2.2.2.1 hl
  have hne : y.before.fut ≠ none := by
    rcases hd with h | h
    · exact (hJ.got h).1
    · exact h.1
  have hfin := (hJ.fin hne).1
  have hw1 : s1.w = .finished := by rw [(owner_frame e4 hy).1]; exact hfin
  have up : ∀ {k : Nat} {z : Step}, (trace d {} pre)[k]? = some z → (trace d {} acts)[k]? = some z := by
    intro k z h
    rw [e6, List.getElem?_append_left (List.getElem?_eq_some_iff.1 h).1]; exact h
  have upHB : ∀ {i k : Nat}, HB d (trace d {} pre) i k → HB d (trace d {} acts) i k := by
    intro i k h
    rw [e6]; exact hb_append h
  have key : ∃ k, Pub d (trace d {} pre) k ∧ HB d (trace d {} acts) k j := by
    rcases hd with h | h
    · obtain ⟨_, k, l, z, hk, hkl, hl, ho⟩ := hJ.got h
      obtain ⟨x, hx, hp⟩ := hk.1
      have hll := (List.getElem?_eq_some_iff.1 hl).1
      have hzw : z.thread d = y.thread d := by
        rw [hy]
        obtain ⟨za, _⟩ := ho
        simp [Step.thread, za]
      exact ⟨k, hk, .trans (.sync hkl (up hx) (up hl) (.inl ⟨hp, ho⟩)) (.thread (by omega) (up hl) hj hzw)⟩
    · obtain ⟨_, k, hk⟩ := hJ.fin hne
      obtain ⟨x, hx, hp⟩ := hk.1
      have hkl := pub_lt hk
      exact ⟨k, hk, .sync (by omega) (up hx) hj (.inl ⟨hp, h.2⟩)⟩
  obtain ⟨k, hk, hb⟩ := key
  have hst : y.before.stream = false := by
    cases hst : y.before.stream with
    | false => rfl
    | true => have := hJ.ctl.inw hst; rw [hfin] at this; cases this
  have hdom := hJ.tok.wrk (hJ.ctl.quiet hst).1 (.inl hst)
  intro i x hi hx
  have hi' : (trace d {} pre)[i]? = some x := by
    rcases Nat.lt_or_ge i j with h | h
    · rw [e6, List.getElem?_append_left (by omega)] at hi; exact hi
    · exfalso
      rw [e6, List.getElem?_append_right (by omega)] at hi
      cases hd' : i - (trace d {} pre).length with
      | zero => rw [hd'] at hi; simp at hi; subst hi; exact (owner_frame hs hy).2.2.2.2.2.2.2 hx
      | succ n =>
        rw [hd'] at hi
        simp at hi
        exact finished_quiet post _ _ (ctl_step hJ.ctl e4) hw1 e5 x (List.mem_of_getElem? hi) hx
  rcases hdom with h | ⟨q, z, hq, hz, ha⟩
  · exact absurd hx (h i x hi')
  · have hqj : HB d (trace d {} acts) q j := by
      have hqk := hk.2 q z hq hz
      rcases Nat.eq_or_lt_of_le hqk with rfl | hlt
      · exact hb
      · obtain ⟨p, hp, hpp⟩ := hk.1
        have hpw : z.thread d = p.thread d := by
          rw [hz]
          obtain ⟨za, _⟩ := hpp
          simp [Step.thread, za]
        exact .trans (.thread hlt (up hq) (up hp) hpw) hb
    rcases ha i x hi' hx with rfl | h
    · exact hqj
    · exact .trans (upHB h) hqj

/-- C154, the callback needs no locks for itself: of two steps in which a callback is called or returns, on whichever threads, the earlier happens before the later. -/
theorem C154_callbacks (d : Bool) (acts : List Act) (s : St) (hr : run true d {} acts = some s) (i j : Nat) (x y : Step) (hij : i < j)
    (hx : (trace d {} acts)[i]? = some x) (hy : (trace d {} acts)[j]? = some y) (hxc : x.calls d) (hyc : y.calls d) : HB d (trace d {} acts) i j := by
  obtain ⟨pre, post, s1, e1, e2, e3, e4, e5, e6, e7⟩ := cut acts _ _ _ _ hr hy
  have hJ : J d (trace d {} pre) y.before := by simpa using j_run pre [] _ _ j_init e2
  have hi' : (trace d {} pre)[i]? = some x := by rw [e6, List.getElem?_append_left (by omega)] at hx; exact hx
  have up : HB d (trace d {} pre ++ [y]) i j → HB d (trace d {} acts) i j := by
    intro h
    have : trace d {} acts = (trace d {} pre ++ [y]) ++ trace d s1 post := by rw [e6]; simp
    rw [this]; exact hb_append h
  have fin : ∀ P : Step → Prop, Dom d (trace d {} pre) P → (∀ z, P z → z.thread d = y.thread d ∨ Sync d z y) → HB d (trace d {} acts) i j := by
    intro P hdom hP
    have := dom_reach (x := y) hdom hP hi' hxc
    rw [e7] at this
    exact up this
  have noLog : ∀ {s' : St}, step true d y.before y.act = some s' → s'.log = y.before.log → False := by
    intro s' h1 h2
    exact quietStep (a := y.act) h1 (by simp [h2]) (by simp [h2]) hyc
  have ht := hJ.tok
  cases hw : y.thread d with
  | owner => exact absurd hyc (owner_frame e4 hw).2.2.2.2.2.2.2
  | system => exact (noLog e4 (system_frame e4 hw).2.2.2.2.2.2).elim
  | worker =>
    obtain ⟨_, f2, f3, _, _, f6, _⟩ := worker_frame hJ.ctl e4 hw
    rcases f6 with ⟨g1, g2, g3, g4, g5⟩ | ⟨g1, g2, g3, g4, g5, g6⟩ | ⟨g1, g2, g3, g4, g5⟩ | ⟨g1, g2, g3⟩
    · exact (noLog e4 g5).elim
    · refine fin _ (ht.opn g5 g1 g2) ?_
      rintro z (hz | hz)
      · left; rw [hw]; simp [Step.thread, hz]
      · exact .inr (.inr (.inl ⟨.inl hz, g6⟩))
    · exact fin _ (ht.wrk g5 (.inl g1)) (fun z hz => .inl (by rw [hz, hw]))
    · exact fin _ (ht.wrk g3 g1) (fun z hz => .inl (by rw [hz, hw]))
  | call n =>
    obtain ⟨f1, f2, _, _, f5, f6, f7, f8, _⟩ := call_frame hJ.ctl e4 hw
    rcases f8 with ⟨g1, g2, g3, i, g4⟩ | ⟨g1, g2, g3⟩
    · refine fin _ (ht.opn g1 f5 f6) ?_
      rintro z (hz | hz)
      · exact .inr (.inr (.inr ⟨hz, i, g4⟩))
      · exact .inr (.inr (.inl ⟨.inl hz, .inl g2⟩))
    · have hb := ht.busy g1
      rw [g2] at hb
      exact fin _ hb (fun z hz => .inl (by rw [hz, hw]))

/-- The hypotheses are met: two calls of `event_recv` with a notification each, then the owner closes and destroys the watch. -/
private def noteD (p : Str) : Darwin.Note := { path := p, flags := 0x10100#32 }
private def actsD : List Act := [.w, .w, .w, .cbReturn, .opened true, .notify [noteD b!"/r/a"], .enter, .tryLock 0, .k, .k, .kReturn, .k, .notify [noteD b!"/r/b"], .enter, .tryLock 0, .k, .k, .kReturn, .k,
  .w, .oClose, .o, .o, .o, .w, .w, .w, .w, .w, .cbReturn, .w, .o, .oDtor, .o, .o, .o]

private theorem ranD : ∃ s, run true true {} actsD = some s ∧ s.log = [.cb (.live true), .cbRet, .cb (.ev ⟨b!"/r/a", .create, .file, none⟩), .cbRet, .cb (.ev ⟨b!"/r/b", .create, .file, none⟩), .cbRet,
    .closeCall, .cb (.die true), .cbRet, .closeRet true, .dtorCall, .dtorRet] := by
  have h : (match run true true {} actsD with
    | some s => decide (s.log = [.cb (.live true), .cbRet, .cb (.ev ⟨b!"/r/a", .create, .file, none⟩), .cbRet, .cb (.ev ⟨b!"/r/b", .create, .file, none⟩), .cbRet,
      .closeCall, .cb (.die true), .cbRet, .closeRet true, .dtorCall, .dtorRet]) | none => false) = true := by decide +kernel
  split at h
  · rename_i s hs; exact ⟨s, hs, by simpa using h⟩
  · cases h

example : ∃ y, (trace true {} actsD)[31]? = some y ∧ y.ends true := ⟨_, rfl, _, rfl, .inl ⟨true, rfl⟩⟩
example : ∃ y, (trace true {} actsD)[35]? = some y ∧ y.ends true := ⟨_, rfl, _, rfl, .inr rfl⟩
/-- Callbacks of the watching thread and of two calls of the system. -/
example : ∃ x y z, (trace true {} actsD)[2]? = some x ∧ (trace true {} actsD)[9]? = some y ∧ (trace true {} actsD)[16]? = some z ∧ x.calls true ∧ y.calls true ∧ z.calls true ∧
    x.thread true = .worker ∧ y.thread true = .call 1 ∧ z.thread true = .call 2 :=
  ⟨_, _, _, rfl, rfl, rfl, ⟨_, rfl, .inl ⟨_, rfl⟩⟩, ⟨_, rfl, .inl ⟨_, rfl⟩⟩, ⟨_, rfl, .inl ⟨_, rfl⟩⟩, rfl, rfl, rfl⟩

end Verif.Props
