import Verif.Spec.MemoryPolled
import Verif.Lemmas.Polled
/-!
# What happens before what, on Windows and with the scanner: C153
-/

namespace Verif.Props
open Verif Verif.Model Verif.Model.Poll Verif.Spec Verif.Spec.Mem Verif.Spec.MemPoll

variable {B : Backend}

private theorem closeStep_frame {s s' : St B} {c : ClosePc} {r} (h : closeStep s c = some (s', r)) :
    s'.log = s.log ∧ s'.w = s.w ∧ s'.o = s.o ∧ s'.fut = s.fut ∧ (s'.valid = s.valid ∨ (c = .get ∧ s.fut ≠ none)) ∧
    (∀ b, r = .inr b → s.valid = false ∨ (c = .get ∧ s.fut ≠ none)) := by
  cases c <;> simp only [closeStep] at h
  · cases h; exact ⟨rfl, rfl, rfl, rfl, .inl rfl, fun b hb => by cases hb⟩
  · split at h
    · cases h; exact ⟨rfl, rfl, rfl, rfl, .inl rfl, fun b hb => by cases hb⟩
    · rename_i hv; cases h; exact ⟨rfl, rfl, rfl, rfl, .inl rfl, fun b hb => .inl (by simpa using hv)⟩
  · split at h
    · cases h
    · rename_i hf; cases h; exact ⟨rfl, rfl, rfl, rfl, .inr ⟨rfl, by rw [hf]; simp⟩, fun b _ => .inr ⟨rfl, by rw [hf]; simp⟩⟩

private theorem worker_frame {d : Bool} {s s' : St B} {a : Act B} (h : step d s a = some s') (hw : Step.worker ⟨s, a⟩ = true) :
    s.w ≠ .finished ∧ s'.o = s.o ∧ (s'.valid = s.valid ∨ s.fut ≠ none) ∧
    (s'.fut = s.fut ∨ (Step.publishes ⟨s, a⟩ ∧ s'.w = .finished)) ∧ (s'.log = s.log ∨ ∃ e, s'.log = s.log ++ [.cb e] ∧ ∃ n, s'.w = .inCb n) := by
  cases a with
  | o => cases hw
  | oClose => cases hw
  | oDtor => cases hw
  | w =>
    simp only [step] at h
    cases hs : s.w with
    | selfClose c next =>
      simp only [wStep, hs] at h
      have fr : ∀ (s1 : St B) r, closeStep s c = some (s1, r) → s1.o = s.o ∧ (s1.valid = s.valid ∨ s.fut ≠ none) ∧ s1.fut = s.fut ∧ s1.log = s.log := by
        intro s1 r hc
        have := closeStep_frame hc
        refine ⟨this.2.2.1, ?_, this.2.2.2.1, this.1⟩
        rcases this.2.2.2.2.1 with h | h
        · exact .inl h
        · exact .inr h.2
      split at h
      · cases h
      · rename_i hc; cases h; have := fr _ _ hc; exact ⟨by simp, this.1, this.2.1, .inl this.2.2.1, .inl this.2.2.2⟩
      · rename_i hc; cases h; have := fr _ _ hc; exact ⟨by simp, this.1, this.2.1, .inl this.2.2.1, .inl this.2.2.2⟩
    | setFut r =>
      simp only [wStep, hs] at h
      cases h
      exact ⟨by simp, rfl, .inl rfl, .inr ⟨⟨rfl, r, hs⟩, rfl⟩, .inl rfl⟩
    | deliver es next =>
      cases es with
      | nil => cases next <;> simp only [wStep, hs] at h <;> cases h <;> exact ⟨by simp, rfl, .inl rfl, .inl rfl, .inl rfl⟩
      | cons e es => simp only [wStep, hs] at h; cases h; exact ⟨by simp, rfl, .inl rfl, .inl rfl, .inr ⟨_, rfl, _, rfl⟩⟩
    | head b => simp only [wStep, hs] at h; split at h <;> cases h <;> exact ⟨by simp, rfl, .inl rfl, .inl rfl, .inl rfl⟩
    | _ => simp only [wStep, hs] at h <;> cases h <;> first
        | exact ⟨by simp, rfl, .inl rfl, .inl rfl, .inl rfl⟩
        | exact ⟨by simp, rfl, .inl rfl, .inl rfl, .inr ⟨_, rfl, _, rfl⟩⟩
  | sys i =>
    simp only [step] at h
    split at h
    · rename_i hs
      cases hb : B.start i with
      | none => rw [hb] at h; cases h
      | some r => rw [hb] at h; cases h; exact ⟨by rw [hs]; simp, rfl, .inl rfl, .inl rfl, .inl rfl⟩
    · rename_i hs
      cases hb : B.turn _ i with
      | none => rw [hb] at h; cases h
      | some r => rw [hb] at h; cases h; exact ⟨by rw [hs]; simp, rfl, .inl rfl, .inl rfl, .inl rfl⟩
    · cases h
  | _ =>
    simp only [step] at h
    split at h
    · rename_i hs; cases h; exact ⟨by rw [hs]; simp, rfl, .inl rfl, .inl rfl, .inl rfl⟩
    · cases h

private theorem owner_frame {d : Bool} {s s' : St B} {a : Act B} (h : step d s a = some s') (hw : Step.worker ⟨s, a⟩ = false) :
    s'.w = s.w ∧ s'.fut = s.fut ∧ (s'.valid = s.valid ∨ (s.fut ≠ none ∧ Step.obtains ⟨s, a⟩)) ∧
    (∀ o, s'.log = s.log ++ [o] → ((∃ b, o = .closeRet b) ∨ o = .dtorRet) → s.valid = false ∨ (s.fut ≠ none ∧ Step.obtains ⟨s, a⟩)) ∧
    (∀ e, s'.log ≠ s.log ++ [.cb e]) := by
  cases a with
  | o =>
    simp only [step] at h
    cases hs : s.o with
    | idle => simp only [oStep, hs] at h; cases h
    | gone => simp only [oStep, hs] at h; cases h
    | dtorFuture =>
      simp only [oStep, hs] at h
      split at h
      · rename_i hv
        split at h
        · cases h
        · rename_i b hf
          cases h
          exact ⟨rfl, rfl, .inl rfl, fun _ _ _ => .inr ⟨by rw [hf]; simp, rfl, .inr (.inr ⟨hs, hv⟩)⟩, fun e he => by simp at he⟩
      · rename_i hv
        cases h
        exact ⟨rfl, rfl, .inl rfl, fun _ _ _ => .inl (by simpa using hv), fun e he => by simp at he⟩
    | closing c =>
      simp only [oStep, hs] at h
      cases hc : closeStep s c with
      | none => rw [hc] at h; cases h
      | some r =>
        obtain ⟨s1, r⟩ := r
        have fr := closeStep_frame hc
        have hval : s1.valid = s.valid ∨ (s.fut ≠ none ∧ Step.obtains ⟨s, .o⟩) := by
          rcases fr.2.2.2.2.1 with h | ⟨rfl, h'⟩
          · exact .inl h
          · exact .inr ⟨h', rfl, .inl hs⟩
        rw [hc] at h
        cases r with
        | inl c' => cases h; exact ⟨fr.2.1, fr.2.2.2.1, hval, fun o ho _ => by simp [fr.1] at ho, fun e he => by simp [fr.1] at he⟩
        | inr b =>
          cases h
          refine ⟨fr.2.1, fr.2.2.2.1, hval, fun o _ _ => ?_, fun e he => by simp [fr.1] at he⟩
          rcases fr.2.2.2.2.2 b rfl with h | ⟨rfl, h⟩
          · exact .inl h
          · exact .inr ⟨h, rfl, .inl hs⟩
    | dtorClosing c =>
      simp only [oStep, hs] at h
      cases hc : closeStep s c with
      | none => rw [hc] at h; cases h
      | some r =>
        obtain ⟨s1, r⟩ := r
        have fr := closeStep_frame hc
        have hval : s1.valid = s.valid ∨ (s.fut ≠ none ∧ Step.obtains ⟨s, .o⟩) := by
          rcases fr.2.2.2.2.1 with h | ⟨rfl, h'⟩
          · exact .inl h
          · exact .inr ⟨h', rfl, .inr (.inl hs)⟩
        rw [hc] at h
        cases r <;> cases h <;> exact ⟨fr.2.1, fr.2.2.2.1, hval, fun o ho _ => by simp [fr.1] at ho, fun e he => by simp [fr.1] at he⟩
  | oClose =>
    simp only [step] at h
    split at h
    · cases h
      refine ⟨rfl, rfl, .inl rfl, ?_, fun e he => by simp at he⟩
      intro o ho hr
      simp at ho
      subst ho
      rcases hr with ⟨b, hb⟩ | hb <;> cases hb
    · cases h
  | oDtor =>
    simp only [step] at h
    split at h
    · cases h
      refine ⟨rfl, rfl, .inl rfl, ?_, fun e he => by simp at he⟩
      intro o ho hr
      simp at ho
      subst ho
      rcases hr with ⟨b, hb⟩ | hb <;> cases hb
    · cases h
  | _ => cases hw

/-- All steps of the watching thread have a number up to `k`, with which its result is set. -/
private def Pub (t : List (Step B)) (k : Nat) : Prop := (∃ x, t[k]? = some x ∧ x.publishes) ∧ ∀ i y, t[i]? = some y → y.worker = true → i ≤ k

private structure J (t : List (Step B)) (s : St B) : Prop where
  fin : s.fut ≠ none → s.w = .finished ∧ ∃ k, Pub t k
  got : s.valid = false → s.fut ≠ none ∧ ∃ k l y, Pub t k ∧ k < l ∧ t[l]? = some y ∧ y.obtains

private theorem pub_lt {t : List (Step B)} {k : Nat} (h : Pub t k) : k < t.length := by
  obtain ⟨⟨x, hx, _⟩, _⟩ := h
  exact (List.getElem?_eq_some_iff.1 hx).1

private theorem pub_snoc {t : List (Step B)} {k : Nat} {x : Step B} (h : Pub t k) (hx : x.worker = false) : Pub (t ++ [x]) k := by
  have hl := pub_lt h
  obtain ⟨⟨y, hy, hp⟩, ha⟩ := h
  refine ⟨⟨y, by rw [List.getElem?_append_left hl]; exact hy, hp⟩, ?_⟩
  intro i z hi hz
  rcases Nat.lt_or_ge i t.length with hlt | hge
  · rw [List.getElem?_append_left hlt] at hi; exact ha i z hi hz
  · rw [List.getElem?_append_right hge] at hi
    have : i - t.length = 0 := by
      have := (List.getElem?_eq_some_iff.1 hi).1
      simp at this; omega
    rw [this] at hi
    simp at hi
    subst hi
    rw [hx] at hz; cases hz

private theorem j_step {d : Bool} {t : List (Step B)} {s s' : St B} {a : Act B} (hj : J t s) (h : step d s a = some s') : J (t ++ [⟨s, a⟩]) s' := by
  cases hw : Step.worker ⟨s, a⟩ with
  | true =>
    have hf := worker_frame h hw
    have hn : s.fut = none := by
      cases hfut : s.fut with
      | none => rfl
      | some b => exact absurd (hj.fin (by rw [hfut]; simp)).1 hf.1
    have hv : s'.valid = s.valid := by
      rcases hf.2.2.1 with h | h
      · exact h
      · exact absurd hn h
    refine ⟨?_, ?_⟩
    · intro hne
      rcases hf.2.2.2.1 with h | h
      · rw [h] at hne; exact absurd hn hne
      · refine ⟨h.2, t.length, ⟨⟨_, by simp, h.1⟩, ?_⟩⟩
        intro i y hi _
        have := (List.getElem?_eq_some_iff.1 hi).1
        simp at this; omega
    · intro hg
      rw [hv] at hg
      exact absurd hn (hj.got hg).1
  | false =>
    obtain ⟨f1, f3, f4, _, _⟩ := owner_frame h hw
    refine ⟨?_, ?_⟩
    · intro hne
      rw [f3] at hne
      obtain ⟨hfin, k, hk⟩ := hj.fin hne
      exact ⟨by rw [f1]; exact hfin, k, pub_snoc hk hw⟩
    · intro hg
      rcases f4 with h | h
      · obtain ⟨hne, k, l, y, hk, hkl, hl, ho⟩ := hj.got (by rw [← h]; exact hg)
        exact ⟨by rw [f3]; exact hne, k, l, y, pub_snoc hk hw, hkl, by rw [List.getElem?_append_left (List.getElem?_eq_some_iff.1 hl).1]; exact hl, ho⟩
      · obtain ⟨_, k, hk⟩ := hj.fin h.1
        exact ⟨by rw [f3]; exact h.1, k, t.length, _, pub_snoc hk hw, pub_lt hk, by simp, h.2⟩

private theorem j_run {d : Bool} (acts : List (Act B)) : ∀ (t : List (Step B)) (s s' : St B), J t s → run d s acts = some s' → J (t ++ trace d s acts) s' := by
  induction acts with
  | nil => intro t s s' hj h; simp only [run] at h; cases h; simpa [trace] using hj
  | cons a as ih =>
    intro t s s' hj h
    simp only [run] at h
    simp only [trace]
    split at h
    · cases h
    · rename_i s1 h1
      have := ih _ s1 s' (j_step hj h1) h
      simpa [h1] using this

private theorem j_init : J (B := B) [] {} := ⟨fun h => absurd rfl h, fun h => by cases h⟩

/-- Cut a schedule before its step with number `j`. -/
private theorem cut {d : Bool} (acts : List (Act B)) : ∀ (s s' : St B) (j : Nat) (y : Step B), run d s acts = some s' → (trace d s acts)[j]? = some y →
    ∃ pre post s1, acts = pre ++ y.act :: post ∧ run d s pre = some y.before ∧ pre.length = j ∧ step d y.before y.act = some s1 ∧ run d s1 post = some s' ∧
      trace d s acts = trace d s pre ++ y :: trace d s1 post ∧ (trace d s pre).length = j := by
  induction acts with
  | nil => intro s s' j y _ h; simp [trace] at h
  | cons a as ih =>
    intro s s' j y h hj
    simp only [run] at h
    simp only [trace] at hj
    cases h1 : step d s a with
    | none => rw [h1] at h; cases h
    | some s1 =>
      rw [h1] at h hj
      simp only at h hj
      cases j with
      | zero =>
        simp at hj
        subst hj
        exact ⟨[], as, s1, rfl, rfl, rfl, h1, h, by simp [trace, h1], rfl⟩
      | succ j =>
        simp at hj
        obtain ⟨pre, post, s2, e1, e2, e3, e4, e5, e6, e7⟩ := ih s1 s' j y h hj
        refine ⟨a :: pre, post, s2, by rw [e1]; rfl, by simp only [run, h1]; exact e2, by simp [e3], e4, e5, ?_, by simp only [trace, h1, List.length_cons, e7]⟩
        simp only [trace, h1, List.cons_append, e6]

private theorem finished_quiet {d : Bool} (acts : List (Act B)) : ∀ (s s' : St B), s.w = .finished → run d s acts = some s' → ∀ x ∈ trace d s acts, x.worker = false := by
  induction acts with
  | nil => intro s s' _ _ x hx; simp [trace] at hx
  | cons a as ih =>
    intro s s' hs h x hx
    simp only [run] at h
    cases h1 : step d s a with
    | none => rw [h1] at h; cases h
    | some s1 =>
      rw [h1] at h
      cases hw : Step.worker ⟨s, a⟩ with
      | true => exact absurd hs (worker_frame h1 hw).1
      | false =>
        simp only [trace, h1, List.mem_cons] at hx
        rcases hx with rfl | hx
        · exact hw
        · exact ih s1 s' (by rw [(owner_frame h1 hw).1]; exact hs) h x hx

/-- A step of the owner after whose state the result was obtained, or which obtains it, comes after everything. -/
private theorem all_before {d : Bool} {acts : List (Act B)} {s : St B} (hr : run d {} acts = some s) {j : Nat} {y : Step B}
    (hj : (trace d {} acts)[j]? = some y) (hy : y.worker = false)
    (hd : y.before.valid = false ∨ (y.before.fut ≠ none ∧ y.obtains)) : AllBefore (trace d {} acts) j := by
  obtain ⟨pre, post, s1, e1, e2, e3, e4, e5, e6, e7⟩ := cut acts _ _ _ _ hr hj
  have hJ : J (trace d {} pre) y.before := by simpa using j_run pre [] _ _ j_init e2
  have hne : y.before.fut ≠ none := by
    rcases hd with h | h
    · exact (hJ.got h).1
    · exact h.1
  have hfin := (hJ.fin hne).1
  have hw1 : s1.w = .finished := by rw [(owner_frame e4 hy).1]; exact hfin
  have key : ∃ k, k < j ∧ Pub (trace d {} pre) k ∧ HB (trace d {} acts) k j := by
    rcases hd with h | h
    · obtain ⟨_, k, l, z, hk, hkl, hl, ho⟩ := hJ.got h
      have hll := (List.getElem?_eq_some_iff.1 hl).1
      have hl' : (trace d {} acts)[l]? = some z := by rw [e6, List.getElem?_append_left hll]; exact hl
      obtain ⟨x, hx, hp⟩ := hk.1
      have hx' : (trace d {} acts)[k]? = some x := by rw [e6, List.getElem?_append_left (by omega)]; exact hx
      have hzw : z.worker = y.worker := by
        rw [hy]
        obtain ⟨za, _⟩ := ho
        simp [Step.worker, za]
      exact ⟨k, by omega, hk, .trans (.sync hkl hx' hl' ⟨hp, ho⟩) (.thread (by omega) hl' hj hzw)⟩
    · obtain ⟨_, k, hk⟩ := hJ.fin hne
      obtain ⟨x, hx, hp⟩ := hk.1
      have hkl := pub_lt hk
      have hx' : (trace d {} acts)[k]? = some x := by rw [e6, List.getElem?_append_left hkl]; exact hx
      exact ⟨k, by omega, hk, .sync (by omega) hx' hj ⟨hp, h.2⟩⟩
  obtain ⟨k, hkj, hk, hb⟩ := key
  intro i x hi hx
  have hij : i < j := by
    rcases Nat.lt_or_ge i j with h | h
    · exact h
    · exfalso
      rw [e6, List.getElem?_append_right (by omega)] at hi
      cases hd' : i - (trace d {} pre).length with
      | zero => rw [hd'] at hi; simp at hi; subst hi; rw [hy] at hx; cases hx
      | succ n =>
        rw [hd'] at hi
        simp at hi
        rw [finished_quiet post _ _ hw1 e5 x (List.mem_of_getElem? hi)] at hx
        cases hx
  have hi' : (trace d {} pre)[i]? = some x := by rw [e6, List.getElem?_append_left (by omega)] at hi; exact hi
  have hik := hk.2 i x hi' hx
  rcases Nat.eq_or_lt_of_le hik with rfl | hlt
  · exact hb
  · obtain ⟨z, hz, hp⟩ := hk.1
    have hz' : (trace d {} acts)[k]? = some z := by rw [e6, List.getElem?_append_left (by omega)]; exact hz
    have hzw : x.worker = z.worker := by
      rw [hx]
      obtain ⟨za, _⟩ := hp
      simp [Step.worker, za]
    exact .trans (.thread hlt hi hz' hzw) hb

/-- C153: when a `close()`, with whichever answer, or the destructor has returned, everything the callback ever does happened before. -/
theorem C153_end (B : Backend) (d : Bool) (acts : List (Act B)) (s : St B) (hr : run d {} acts = some s)
    (j : Nat) (y : Step B) (hj : (trace d {} acts)[j]? = some y) (hc : y.ends d) : AllBefore (trace d {} acts) j := by
  obtain ⟨s', o, hs, hl, ho⟩ := hc
  have hw : y.worker = false := by
    cases hw : y.worker with
    | false => rfl
    | true =>
      exfalso
      rcases (worker_frame hs hw).2.2.2.2 with h | ⟨e, h, _⟩
      · rw [h] at hl; simp at hl
      · rw [h] at hl
        simp at hl
        subst hl
        rcases ho with ⟨b, hb⟩ | hb <;> cases hb
  exact all_before hr hj hw ((owner_frame hs hw).2.2.2.1 o hl ho)

/-- The callback is running, or is inside a `close()` it called. -/
private def Busy (w : WPc B) : Prop := (∃ n, w = .inCb n) ∨ ∃ c n, w = .selfClose c n

private theorem busy_step {d : Bool} {s s' : St B} {a : Act B} (h : step d s a = some s') (hb : Busy s.w) (ha : a ≠ .cbReturn) : Busy s'.w ∧ ∀ e, s'.log ≠ s.log ++ [.cb e] := by
  cases hw : Step.worker ⟨s, a⟩ with
  | false => exact ⟨by rw [(owner_frame h hw).1]; exact hb, (owner_frame h hw).2.2.2.2⟩
  | true =>
    rcases hb with ⟨n, hn⟩ | ⟨c, n, hn⟩
    · cases a with
      | cbReturn => exact absurd rfl ha
      | cbClose => simp only [step, hn] at h; cases h; exact ⟨.inr ⟨_, _, rfl⟩, fun e he => by simp at he⟩
      | o => cases hw
      | oClose => cases hw
      | oDtor => cases hw
      | _ => simp only [step, wStep, hn] at h; cases h
    · cases a with
      | w =>
        simp only [step, wStep, hn] at h
        split at h
        · cases h
        · rename_i hc; cases h; exact ⟨.inr ⟨_, _, rfl⟩, fun e he => by simp [(closeStep_frame hc).1] at he⟩
        · rename_i hc; cases h; exact ⟨.inl ⟨_, rfl⟩, fun e he => by simp [(closeStep_frame hc).1] at he⟩
      | o => cases hw
      | oClose => cases hw
      | oDtor => cases hw
      | _ => simp only [step, hn] at h; cases h

private theorem called_busy {d : Bool} {s s' : St B} {a : Act B} {e : Msg B.ε} (h : step d s a = some s') (hl : s'.log = s.log ++ [.cb e]) : Step.worker ⟨s, a⟩ = true ∧ Busy s'.w := by
  cases hw : Step.worker ⟨s, a⟩ with
  | false => exact absurd hl ((owner_frame h hw).2.2.2.2 e)
  | true =>
    refine ⟨rfl, ?_⟩
    rcases (worker_frame h hw).2.2.2.2 with h | ⟨_, _, n, hn⟩
    · rw [h] at hl; simp at hl
    · exact .inl ⟨n, hn⟩

private theorem returns_first {d : Bool} {e : Msg B.ε} {s2 : St B} {y : Step B} (h2 : step d y.before y.act = some s2) (hl : s2.log = y.before.log ++ [.cb e]) (acts : List (Act B)) :
    ∀ (s : St B) (j : Nat), Busy s.w → (trace d s acts)[j]? = some y → ∃ k z, k < j ∧ (trace d s acts)[k]? = some z ∧ z.act = .cbReturn := by
  induction acts with
  | nil => intro s j _ h; simp [trace] at h
  | cons a as ih =>
    intro s j hb h
    by_cases ha : a = .cbReturn
    · subst ha
      cases j with
      | zero =>
        simp [trace] at h
        subst h
        exfalso
        rcases hb with ⟨n, hn⟩ | ⟨c, n, hn⟩
        · simp only [step, hn] at h2; cases h2; simp at hl
        · simp only [step, hn] at h2; cases h2
      | succ j => exact ⟨0, ⟨s, .cbReturn⟩, by omega, by simp [trace], rfl⟩
    · cases h1 : step d s a with
      | none =>
        cases j with
        | zero => simp [trace] at h; subst h; rw [h1] at h2; cases h2
        | succ j => simp [trace, h1] at h
      | some s1 =>
        cases j with
        | zero => simp [trace] at h; subst h; exact absurd hl ((busy_step h2 hb ha).2 e)
        | succ j =>
          simp [trace, h1] at h
          obtain ⟨k, z, hk, hz, hr⟩ := ih s1 j (busy_step h1 hb ha).1 h
          exact ⟨k + 1, z, by omega, by simp [trace, h1, hz], hr⟩

private theorem between {d : Bool} {e f : Msg B.ε} {s1 s2 : St B} {x y : Step B} (h1 : step d x.before x.act = some s1) (he : s1.log = x.before.log ++ [.cb e])
    (h2 : step d y.before y.act = some s2) (hf : s2.log = y.before.log ++ [.cb f]) (acts : List (Act B)) :
    ∀ (s : St B) (i j : Nat), i < j → (trace d s acts)[i]? = some x → (trace d s acts)[j]? = some y →
      ∃ k z, i < k ∧ k < j ∧ (trace d s acts)[k]? = some z ∧ z.act = .cbReturn := by
  induction acts with
  | nil => intro s i j _ h; simp [trace] at h
  | cons a as ih =>
    intro s i j hij hx hy
    obtain ⟨j, rfl⟩ : ∃ j', j = j' + 1 := ⟨j - 1, by omega⟩
    cases hs : step d s a with
    | none => simp [trace, hs] at hy
    | some s' =>
      simp [trace, hs] at hy
      cases i with
      | zero =>
        simp [trace] at hx
        subst hx
        rw [hs] at h1
        obtain rfl : s' = s1 := by cases h1; rfl
        obtain ⟨k, z, hk, hz, hr⟩ := returns_first h2 hf as s' j (called_busy hs he).2 hy
        exact ⟨k + 1, z, by omega, by omega, by simp [trace, hs, hz], hr⟩
      | succ i =>
        simp [trace, hs] at hx
        obtain ⟨k, z, hk, hkj, hz, hr⟩ := ih s' i j (by omega) hx hy
        exact ⟨k + 1, z, by omega, by omega, by simp [trace, hs, hz], hr⟩

/-- C153, the callback needs no locks for itself: of two calls the earlier has returned before the later begins, and happens before it. -/
theorem C153_callbacks (B : Backend) (d : Bool) (acts : List (Act B)) (s s1 s2 : St B) (i j : Nat) (x y : Step B) (e f : Msg B.ε) (hij : i < j)
    (hx : (trace d s acts)[i]? = some x) (hy : (trace d s acts)[j]? = some y)
    (h1 : step d x.before x.act = some s1) (he : s1.log = x.before.log ++ [.cb e]) (h2 : step d y.before y.act = some s2) (hf : s2.log = y.before.log ++ [.cb f]) :
    ∃ k z, (trace d s acts)[k]? = some z ∧ z.act = .cbReturn ∧ HB (trace d s acts) i k ∧ HB (trace d s acts) k j := by
  obtain ⟨k, z, hik, hkj, hz, hr⟩ := between h1 he h2 hf acts s i j hij hx hy
  have hxw := (called_busy h1 he).1
  have hyw := (called_busy h2 hf).1
  have hzw : z.worker = true := by simp [Step.worker, hr]
  exact ⟨k, z, hz, hr, .thread hik hx hz (by rw [hzw]; exact hxw), .thread hkj hz hy (by rw [hzw]; exact hyw.symm)⟩

/-- The hypotheses are met: a scanner that is closed by its owner and then destroyed. -/
private def world0 : Warthog.World := ⟨.dir [] (some 0), fun _ => true⟩
private def actsS : List (Act scanner) := [.w, .w, .w, .cbReturn, .sys world0, .w, .oClose, .o, .o, .w, .w, .cbReturn, .w, .o, .oDtor, .o, .o, .o]

example : ∃ s, run (B := scanner) true {} actsS = some s ∧ s.log = [.cb (.live true), .closeCall, .cb (.die true), .closeRet true, .dtorCall, .dtorRet] := ⟨_, rfl, rfl⟩
example : ∃ y, (trace (B := scanner) true {} actsS)[13]? = some y ∧ y.ends true := ⟨_, rfl, _, .closeRet true, rfl, rfl, .inl ⟨_, rfl⟩⟩
example : ∃ y, (trace (B := scanner) true {} actsS)[17]? = some y ∧ y.ends true := ⟨_, rfl, _, .dtorRet, rfl, rfl, .inr rfl⟩
/-- Two calls of the callback: the live and the die message. -/
example : ∃ x y s1 s2, (trace (B := scanner) true {} actsS)[2]? = some x ∧ (trace (B := scanner) true {} actsS)[10]? = some y ∧
    step true x.before x.act = some s1 ∧ s1.log = x.before.log ++ [.cb (.live true)] ∧ step true y.before y.act = some s2 ∧ s2.log = y.before.log ++ [.cb (.die true)] :=
  ⟨_, _, _, _, rfl, rfl, rfl, rfl, rfl, rfl⟩

end Verif.Props
