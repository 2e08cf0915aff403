import Verif.Spec.Memory
import Verif.Lemmas.Lifecycle
/-!
# What happens before what: C152
-/

namespace Verif.Props
open Verif Verif.Model Verif.Model.Life Verif.Spec Verif.Spec.Mem Verif.Lemmas.Life

/-- C152 as it should be: what the callback did happens before the return of every `close()`. -/
def C152_full : Prop := ∀ (cfg : Cfg) (acts : List Act) (s : St), run cfg (init cfg) acts = some s →
  ∀ j y, (trace cfg (init cfg) acts)[j]? = some y → y.closes cfg → AllBefore (trace cfg (init cfg) acts) j

private theorem worker_frame {cfg : Cfg} {s s' : St} {a : Act} (h : step cfg s a = some s') (hw : Step.worker ⟨s, a⟩ = true) :
    s.w ≠ .finished ∧ s'.o = s.o ∧ s'.sb.fdOk = s.sb.fdOk ∧ (s'.valid = s.valid ∨ s.fut ≠ none) ∧
    (s'.fut = s.fut ∨ (Step.publishes ⟨s, a⟩ ∧ s'.w = .finished)) := by
  cases a with
  | o => cases hw
  | oClose => cases hw
  | oDtor => cases hw
  | w =>
    simp only [step] at h
    cases hs : s.w with
    | selfClose c next =>
      simp only [wStep, hs] at h
      have fr : ∀ (s1 : St) r, closeStep s c = some (s1, r) → s1.o = s.o ∧ s1.sb.fdOk = s.sb.fdOk ∧ (s1.valid = s.valid ∨ s.fut ≠ none) ∧ s1.fut = s.fut := by
        intro s1 r hc
        have := closeStep_frame hc
        refine ⟨this.2.2.1, this.2.2.2.2.2.1, ?_, this.2.2.2.1⟩
        rcases this.2.2.2.2.2.2.2 with h | h
        · exact .inl h
        · exact .inr (by intro hn; rw [hn] at h; cases h.2.2)
      split at h
      · cases h
      · rename_i hc; cases h; have := fr _ _ hc; exact ⟨by simp, this.1, this.2.1, this.2.2.1, .inl this.2.2.2⟩
      · rename_i hc; cases h; have := fr _ _ hc; exact ⟨by simp, this.1, this.2.1, this.2.2.1, .inl this.2.2.2⟩
    | setFut r =>
      simp only [wStep, hs] at h
      cases h
      exact ⟨by simp, rfl, rfl, .inl rfl, .inr ⟨⟨rfl, r, hs⟩, rfl⟩⟩
    | stRead =>
      simp only [wStep, hs] at h
      cases h
      refine ⟨by simp, rfl, ?_, .inl rfl, .inl rfl⟩
      simp only [SB.readEv]; split <;> (try split) <;> rfl
    | aEvs sec evs r items =>
      cases evs <;> simp only [wStep, hs] at h <;> cases h <;> exact ⟨by simp, rfl, rfl, .inl rfl, .inl rfl⟩
    | aItems sec ok items =>
      cases items with
      | nil => simp only [wStep, hs] at h; cases h; exact ⟨by simp, rfl, rfl, .inl rfl, .inl rfl⟩
      | cons i items => cases i <;> simp only [wStep, hs] at h <;> cases h <;> exact ⟨by simp, rfl, rfl, .inl rfl, .inl rfl⟩
    | aDone sec r =>
      simp only [wStep, hs] at h
      split at h
      · cases h; exact ⟨by simp, rfl, rfl, .inl rfl, .inl rfl⟩
      · split at h <;> cases h <;> exact ⟨by simp, rfl, rfl, .inl rfl, .inl rfl⟩
    | _ => simp only [wStep, hs] at h <;> cases h <;> exact ⟨by simp, rfl, rfl, .inl rfl, .inl rfl⟩
  | _ =>
    simp only [step] at h
    split at h
    · rename_i hs
      first
        | (cases h; exact ⟨by rw [hs]; simp, rfl, rfl, .inl rfl, .inl rfl⟩)
        | (split at h
           · cases h; exact ⟨by rw [hs]; simp, rfl, rfl, .inl rfl, .inl rfl⟩
           · cases h)
    · cases h

private theorem owner_frame {cfg : Cfg} {s s' : St} {a : Act} (h : step cfg s a = some s') (hw : Step.worker ⟨s, a⟩ = false) :
    s'.w = s.w ∧ s'.sb.fdOk = s.sb.fdOk ∧ s'.fut = s.fut ∧
    (s'.valid = s.valid ∨ (s.fut ≠ none ∧ Step.obtains ⟨s, a⟩)) ∧
    ((s'.o = .dtorFd ∨ s'.o = .gone) → s.o = .dtorFd ∨ s.o = .gone ∨ s.valid = false ∨ (s.fut ≠ none ∧ Step.obtains ⟨s, a⟩)) ∧
    (s.sb.fdOk = true → (s.o ≠ .closing (.store .error) ∧ s.o ≠ .closing (.check .error)) → s'.o ≠ .closing (.store .error) ∧ s'.o ≠ .closing (.check .error)) ∧
    ((∃ b, s'.log = s.log ++ [.closeRet b]) → s.o = .closing (.check .error) ∨ s.valid = false ∨ (s.fut ≠ none ∧ Step.obtains ⟨s, a⟩)) ∧
    (s'.log = s.log ++ [.dtorRet] → s.o = .dtorFd) := by
  cases a with
  | o =>
    simp only [step] at h
    cases hs : s.o with
    | idle => simp only [oStep, hs] at h; cases h
    | gone => simp only [oStep, hs] at h; cases h
    | dtorFd =>
      simp only [oStep, hs] at h
      cases h
      exact ⟨rfl, rfl, rfl, .inl rfl, fun _ => .inl rfl, fun _ _ => ⟨by simp, by simp⟩, fun ⟨b, hb⟩ => by simp at hb, fun _ => rfl⟩
    | dtorFuture =>
      simp only [oStep, hs] at h
      split at h
      · rename_i hv
        split at h
        · cases h
        · rename_i b hf
          cases h
          exact ⟨rfl, rfl, rfl, .inl rfl, fun _ => .inr (.inr (.inr ⟨by rw [hf]; simp, rfl, .inr (.inr ⟨hs, hv⟩)⟩)), fun _ _ => ⟨by simp, by simp⟩,
            fun ⟨b, hb⟩ => by simp at hb, fun hb => by simp at hb⟩
      · rename_i hv
        cases h
        exact ⟨rfl, rfl, rfl, .inl rfl, fun _ => .inr (.inr (.inl (by simpa using hv))), fun _ _ => ⟨by simp, by simp⟩, fun ⟨b, hb⟩ => by simp at hb, fun hb => by simp at hb⟩
    | closing c =>
      simp only [oStep, hs] at h
      cases hc : closeStep s c with
      | none => rw [hc] at h; cases h
      | some r =>
        obtain ⟨s1, r⟩ := r
        have fr := closeStep_frame hc
        have hval : s1.valid = s.valid ∨ (s.fut ≠ none ∧ Step.obtains ⟨s, .o⟩) := by
          rcases fr.2.2.2.2.2.2.2 with h | ⟨rfl, _, h⟩
          · exact .inl h
          · exact .inr ⟨(by intro hn; rw [hn] at h; cases h), rfl, .inl hs⟩
        rw [hc] at h
        cases r with
        | inl c' =>
          cases h
          refine ⟨fr.2.1, fr.2.2.2.2.2.1, fr.2.2.2.1, hval, fun h => by simp at h, ?_, fun ⟨b, hb⟩ => by simp [fr.1] at hb, fun hb => by simp [fr.1] at hb⟩
          intro hfd hne
          cases c with
          | load => simp only [closeStep] at hc; split at hc <;> cases hc <;> exact ⟨by simp, by simp⟩
          | write => simp only [closeStep, SB.writeEv, hfd] at hc; cases hc; exact ⟨by simp, by simp⟩
          | store v =>
            simp only [closeStep] at hc; cases hc
            refine ⟨by simp, ?_⟩
            intro he
            simp only [OPc.closing.injEq, ClosePc.check.injEq] at he
            subst he
            exact hne.1 rfl
          | check v =>
            simp only [closeStep] at hc
            split at hc
            · cases hc
            · split at hc <;> cases hc
              exact ⟨by simp, by simp⟩
          | get => simp only [closeStep] at hc; split at hc <;> cases hc
        | inr b =>
          cases h
          refine ⟨fr.2.1, fr.2.2.2.2.2.1, fr.2.2.2.1, hval, fun h => by simp at h, fun _ _ => ⟨by simp, by simp⟩, ?_, fun hb => by simp [fr.1] at hb⟩
          intro _
          cases c with
          | load => simp only [closeStep] at hc; split at hc <;> cases hc
          | write => simp only [closeStep] at hc; cases hc
          | store v => simp only [closeStep] at hc; cases hc
          | check v =>
            simp only [closeStep] at hc
            split at hc
            · rename_i hv; exact .inl (by rw [hv])
            · split at hc
              · cases hc
              · rename_i hv; exact .inr (.inl (by simpa using hv))
          | get =>
            simp only [closeStep] at hc
            split at hc
            · cases hc
            · rename_i hf; exact .inr (.inr ⟨by rw [hf]; simp, rfl, .inl hs⟩)
    | dtorClosing c =>
      simp only [oStep, hs] at h
      cases hc : closeStep s c with
      | none => rw [hc] at h; cases h
      | some r =>
        obtain ⟨s1, r⟩ := r
        have fr := closeStep_frame hc
        have hval : s1.valid = s.valid ∨ (s.fut ≠ none ∧ Step.obtains ⟨s, .o⟩) := by
          rcases fr.2.2.2.2.2.2.2 with h | ⟨rfl, _, h⟩
          · exact .inl h
          · exact .inr ⟨(by intro hn; rw [hn] at h; cases h), rfl, .inr (.inl hs)⟩
        rw [hc] at h
        cases r <;> cases h <;>
          exact ⟨fr.2.1, fr.2.2.2.2.2.1, fr.2.2.2.1, hval, fun h => by simp at h, fun _ _ => ⟨by simp, by simp⟩, fun ⟨b, hb⟩ => by simp [fr.1] at hb, fun hb => by simp [fr.1] at hb⟩
  | oClose =>
    simp only [step] at h
    split at h
    · cases h; exact ⟨rfl, rfl, rfl, .inl rfl, fun h => by simp at h, fun _ _ => ⟨by simp, by simp⟩, fun ⟨b, hb⟩ => by simp at hb, fun hb => by simp at hb⟩
    · cases h
  | oDtor =>
    simp only [step] at h
    split at h
    · cases h; exact ⟨rfl, rfl, rfl, .inl rfl, fun h => by simp at h, fun _ _ => ⟨by simp, by simp⟩, fun ⟨b, hb⟩ => by simp at hb, fun hb => by simp at hb⟩
    · cases h
  | _ => cases hw

/-- All steps of the watching thread have a number up to `k`, with which its result is set. -/
private def Pub (t : List Step) (k : Nat) : Prop := (∃ x, t[k]? = some x ∧ x.publishes) ∧ ∀ i y, t[i]? = some y → y.worker = true → i ≤ k

private structure J (cfg : Cfg) (t : List Step) (s : St) : Prop where
  fd : s.sb.fdOk = cfg.fdOk
  fin : s.fut ≠ none → s.w = .finished ∧ ∃ k, Pub t k
  got : (s.valid = false ∨ s.o = .dtorFd ∨ s.o = .gone) → s.fut ≠ none ∧ ∃ k l y, Pub t k ∧ k < l ∧ t[l]? = some y ∧ y.obtains
  err : cfg.fdOk = true → s.o ≠ .closing (.store .error) ∧ s.o ≠ .closing (.check .error)

private theorem pub_lt {t : List Step} {k : Nat} (h : Pub t k) : k < t.length := by
  obtain ⟨⟨x, hx, _⟩, _⟩ := h
  exact (List.getElem?_eq_some_iff.1 hx).1

private theorem pub_snoc {t : List Step} {k : Nat} {x : Step} (h : Pub t k) (hx : x.worker = false) : Pub (t ++ [x]) k := by
  have hl := pub_lt h
  obtain ⟨⟨y, hy, hp⟩, ha⟩ := h
  refine ⟨⟨y, by rw [List.getElem?_append_left hl]; exact hy, hp⟩, ?_⟩
  intro i z hi hz
  rcases Nat.lt_or_ge i t.length with hlt | hge
  · rw [List.getElem?_append_left hlt] at hi; exact ha i z hi hz
  · rw [List.getElem?_append_right hge] at hi
    have : i - t.length = 0 := by
      have := (List.getElem?_eq_some_iff.1 hi).1
      simp at this; omega
    rw [this] at hi
    simp at hi
    subst hi
    rw [hx] at hz; cases hz

private theorem j_step {cfg : Cfg} {t : List Step} {s s' : St} {a : Act} (hj : J cfg t s) (h : step cfg s a = some s') : J cfg (t ++ [⟨s, a⟩]) s' := by
  cases hw : Step.worker ⟨s, a⟩ with
  | true =>
    have hf := worker_frame h hw
    have hn : s.fut = none := by
      cases hfut : s.fut with
      | none => rfl
      | some b => exact absurd (hj.fin (by rw [hfut]; simp)).1 hf.1
    have hv : s'.valid = s.valid := by
      rcases hf.2.2.2.1 with h | h
      · exact h
      · exact absurd hn h
    refine ⟨by rw [hf.2.2.1, hj.fd], ?_, ?_, fun hfd => by rw [hf.2.1]; exact hj.err hfd⟩
    · intro hne
      rcases hf.2.2.2.2 with h | h
      · rw [h] at hne; exact absurd hn hne
      · refine ⟨h.2, t.length, ⟨⟨_, by simp, h.1⟩, ?_⟩⟩
        intro i y hi _
        have := (List.getElem?_eq_some_iff.1 hi).1
        simp at this; omega
    · intro hg
      rw [hv, hf.2.1] at hg
      exact absurd hn (hj.got hg).1
  | false =>
    obtain ⟨f1, f2, f3, f4, f5, f6, _, _⟩ := owner_frame h hw
    have hobt : s.fut ≠ none ∧ Step.obtains ⟨s, a⟩ → s'.fut ≠ none ∧ ∃ k l y, Pub (t ++ [⟨s, a⟩]) k ∧ k < l ∧ (t ++ [⟨s, a⟩])[l]? = some y ∧ y.obtains := by
      intro ⟨hne, ho⟩
      obtain ⟨_, k, hk⟩ := hj.fin hne
      exact ⟨by rw [f3]; exact hne, k, t.length, _, pub_snoc hk hw, pub_lt hk, by simp, ho⟩
    have hold : (s.valid = false ∨ s.o = .dtorFd ∨ s.o = .gone) → s'.fut ≠ none ∧ ∃ k l y, Pub (t ++ [⟨s, a⟩]) k ∧ k < l ∧ (t ++ [⟨s, a⟩])[l]? = some y ∧ y.obtains := by
      intro hg
      obtain ⟨hne, k, l, y, hk, hkl, hl, ho⟩ := hj.got hg
      exact ⟨by rw [f3]; exact hne, k, l, y, pub_snoc hk hw, hkl, by rw [List.getElem?_append_left (List.getElem?_eq_some_iff.1 hl).1]; exact hl, ho⟩
    refine ⟨by rw [f2, hj.fd], ?_, ?_, fun hfd => f6 (by rw [hj.fd]; exact hfd) (hj.err hfd)⟩
    · intro hne
      rw [f3] at hne
      obtain ⟨hfin, k, hk⟩ := hj.fin hne
      exact ⟨by rw [f1]; exact hfin, k, pub_snoc hk hw⟩
    · rintro (hg | hg)
      · rcases f4 with h | h
        · exact hold (.inl (by rw [← h]; exact hg))
        · exact hobt h
      · rcases f5 hg with h | h | h | h
        · exact hold (.inr (.inl h))
        · exact hold (.inr (.inr h))
        · exact hold (.inl h)
        · exact hobt h

private theorem j_run {cfg : Cfg} (acts : List Act) : ∀ (t : List Step) (s s' : St), J cfg t s → run cfg s acts = some s' → J cfg (t ++ trace cfg s acts) s' := by
  induction acts with
  | nil => intro t s s' hj h; simp only [run] at h; cases h; simpa [trace] using hj
  | cons a as ih =>
    intro t s s' hj h
    simp only [run] at h
    simp only [trace]
    split at h
    · cases h
    · rename_i s1 h1
      have := ih _ s1 s' (j_step hj h1) h
      simpa [h1] using this

private theorem j_init (cfg : Cfg) : J cfg [] (init cfg) := ⟨rfl, fun h => absurd rfl h, fun h => by simp [init] at h, fun _ => ⟨by simp [init], by simp [init]⟩⟩

/-- Cut a schedule before its step with number `j`. -/
private theorem cut {cfg : Cfg} (acts : List Act) : ∀ (s s' : St) (j : Nat) (y : Step), run cfg s acts = some s' → (trace cfg s acts)[j]? = some y →
    ∃ pre post s1, acts = pre ++ y.act :: post ∧ run cfg s pre = some y.before ∧ pre.length = j ∧ step cfg y.before y.act = some s1 ∧ run cfg s1 post = some s' ∧
      trace cfg s acts = trace cfg s pre ++ y :: trace cfg s1 post ∧ (trace cfg s pre).length = j := by
  induction acts with
  | nil => intro s s' j y _ h; simp [trace] at h
  | cons a as ih =>
    intro s s' j y h hj
    simp only [run] at h
    simp only [trace] at hj
    cases h1 : step cfg s a with
    | none => rw [h1] at h; cases h
    | some s1 =>
      rw [h1] at h hj
      simp only at h hj
      cases j with
      | zero =>
        simp at hj
        subst hj
        exact ⟨[], as, s1, rfl, rfl, rfl, h1, h, by simp [trace, h1], rfl⟩
      | succ j =>
        simp at hj
        obtain ⟨pre, post, s2, e1, e2, e3, e4, e5, e6, e7⟩ := ih s1 s' j y h hj
        refine ⟨a :: pre, post, s2, by rw [e1]; rfl, by simp only [run, h1]; exact e2, by simp [e3], e4, e5, ?_, by simp only [trace, h1, List.length_cons, e7]⟩
        simp only [trace, h1, List.cons_append, e6]

private theorem finished_quiet {cfg : Cfg} (acts : List Act) : ∀ (s s' : St), s.w = .finished → run cfg s acts = some s' → ∀ x ∈ trace cfg s acts, x.worker = false := by
  induction acts with
  | nil => intro s s' _ _ x hx; simp [trace] at hx
  | cons a as ih =>
    intro s s' hs h x hx
    simp only [run] at h
    cases h1 : step cfg s a with
    | none => rw [h1] at h; cases h
    | some s1 =>
      rw [h1] at h
      cases hw : Step.worker ⟨s, a⟩ with
      | true => exact absurd hs (worker_frame h1 hw).1
      | false =>
        simp only [trace, h1, List.mem_cons] at hx
        rcases hx with rfl | hx
        · exact hw
        · exact ih s1 s' (by rw [(owner_frame h1 hw).1]; exact hs) h x hx

/-- A step of the owner after whose state the result was obtained, or which obtains it, comes after everything. -/
private theorem all_before {cfg : Cfg} {acts : List Act} {s : St} (hr : run cfg (init cfg) acts = some s) {j : Nat} {y : Step}
    (hj : (trace cfg (init cfg) acts)[j]? = some y) (hy : y.worker = false)
    (hd : (y.before.valid = false ∨ y.before.o = .dtorFd ∨ y.before.o = .gone) ∨ (y.before.fut ≠ none ∧ y.obtains)) : AllBefore (trace cfg (init cfg) acts) j := by
  obtain ⟨pre, post, s1, e1, e2, e3, e4, e5, e6, e7⟩ := cut acts _ _ _ _ hr hj
  have hJ : J cfg (trace cfg (init cfg) pre) y.before := by simpa using j_run pre [] _ _ (j_init cfg) e2
  have hne : y.before.fut ≠ none := by
    rcases hd with h | h
    · exact (hJ.got h).1
    · exact h.1
  have hfin := (hJ.fin hne).1
  have hw1 : s1.w = .finished := by rw [(owner_frame e4 hy).1]; exact hfin
  have key : ∃ k, k < j ∧ Pub (trace cfg (init cfg) pre) k ∧ HB (trace cfg (init cfg) acts) k j := by
    rcases hd with h | h
    · obtain ⟨_, k, l, z, hk, hkl, hl, ho⟩ := hJ.got h
      have hll := (List.getElem?_eq_some_iff.1 hl).1
      have hl' : (trace cfg (init cfg) acts)[l]? = some z := by rw [e6, List.getElem?_append_left hll]; exact hl
      obtain ⟨x, hx, hp⟩ := hk.1
      have hx' : (trace cfg (init cfg) acts)[k]? = some x := by rw [e6, List.getElem?_append_left (by omega)]; exact hx
      have hzw : z.worker = y.worker := by
        rw [hy]
        obtain ⟨za, _⟩ := ho
        simp [Step.worker, za]
      exact ⟨k, by omega, hk, .trans (.sync hkl hx' hl' ⟨hp, ho⟩) (.thread (by omega) hl' hj hzw)⟩
    · obtain ⟨_, k, hk⟩ := hJ.fin hne
      obtain ⟨x, hx, hp⟩ := hk.1
      have hkl := pub_lt hk
      have hx' : (trace cfg (init cfg) acts)[k]? = some x := by rw [e6, List.getElem?_append_left hkl]; exact hx
      exact ⟨k, by omega, hk, .sync (by omega) hx' hj ⟨hp, h.2⟩⟩
  obtain ⟨k, hkj, hk, hb⟩ := key
  intro i x hi hx
  have hij : i < j := by
    rcases Nat.lt_or_ge i j with h | h
    · exact h
    · exfalso
      rw [e6, List.getElem?_append_right (by omega)] at hi
      cases hd' : i - (trace cfg (init cfg) pre).length with
      | zero => rw [hd'] at hi; simp at hi; subst hi; rw [hy] at hx; cases hx
      | succ n =>
        rw [hd'] at hi
        simp at hi
        rw [finished_quiet post _ _ hw1 e5 x (List.mem_of_getElem? hi)] at hx
        cases hx
  have hi' : (trace cfg (init cfg) pre)[i]? = some x := by rw [e6, List.getElem?_append_left (by omega)] at hi; exact hi
  have hik := hk.2 i x hi' hx
  rcases Nat.eq_or_lt_of_le hik with rfl | hlt
  · exact hb
  · obtain ⟨z, hz, hp⟩ := hk.1
    have hz' : (trace cfg (init cfg) acts)[k]? = some z := by rw [e6, List.getElem?_append_left (by omega)]; exact hz
    have hzw : x.worker = z.worker := by
      rw [hx]
      obtain ⟨za, _⟩ := hp
      simp [Step.worker, za]
    exact .trans (.thread hlt hi hz' hzw) hb

private theorem worker_log {cfg : Cfg} {s s' : St} {a : Act} (h : step cfg s a = some s') (hw : Step.worker ⟨s, a⟩ = true) :
    s'.log = s.log ∨ ∃ e, s'.log = s.log ++ [.cb e] := by
  cases a with
  | o => cases hw
  | oClose => cases hw
  | oDtor => cases hw
  | w =>
    simp only [step] at h
    cases hs : s.w with
    | selfClose c next =>
      simp only [wStep, hs] at h
      split at h
      · cases h
      · rename_i hc; cases h; exact .inl (closeStep_frame hc).1
      · rename_i hc; cases h; exact .inl (closeStep_frame hc).1
    | aEvs sec evs r items =>
      cases evs <;> simp only [wStep, hs] at h <;> cases h
      · exact .inl rfl
      · exact .inr ⟨_, rfl⟩
    | aItems sec ok items =>
      cases items with
      | nil => simp only [wStep, hs] at h; cases h; exact .inl rfl
      | cons i items => cases i <;> simp only [wStep, hs] at h <;> cases h <;> exact .inl rfl
    | aDone sec r =>
      simp only [wStep, hs] at h
      split at h
      · cases h; exact .inl rfl
      · split at h <;> cases h
        · exact .inr ⟨_, rfl⟩
        · exact .inl rfl
    | _ => simp only [wStep, hs] at h <;> cases h <;> first | exact .inl rfl | exact .inr ⟨_, rfl⟩
  | _ =>
    simp only [step] at h
    split at h
    · first
        | (cases h; exact .inl rfl)
        | (split at h
           · cases h; exact .inl rfl
           · cases h)
    · cases h

private theorem not_worker {cfg : Cfg} {y : Step} {s' : St} {o : Obs} (hs : step cfg y.before y.act = some s') (hl : s'.log = y.before.log ++ [o]) (ho : ∀ e, o ≠ .cb e) :
    y.worker = false := by
  cases hw : y.worker with
  | false => rfl
  | true =>
    rcases worker_log hs hw with h | ⟨e, h⟩
    · rw [h] at hl; simp at hl
    · rw [h] at hl; simp at hl; exact absurd hl.symm (ho e)

/-- C152, when the stop signal could be made: whenever a `close()` has returned, with whichever answer, everything the callback ever does happened before. -/
theorem C152_close_partial (cfg : Cfg) (hfd : cfg.fdOk = true) (acts : List Act) (s : St) (hr : run cfg (init cfg) acts = some s)
    (j : Nat) (y : Step) (hj : (trace cfg (init cfg) acts)[j]? = some y) (hc : y.closes cfg) : AllBefore (trace cfg (init cfg) acts) j := by
  obtain ⟨s', b, hs, hl⟩ := hc
  have hw := not_worker hs hl (by intro e h; cases h)
  obtain ⟨pre, post, s1, e1, e2, e3, e4, e5, e6, e7⟩ := cut acts _ _ _ _ hr hj
  have hJ : J cfg (trace cfg (init cfg) pre) y.before := by simpa using j_run pre [] _ _ (j_init cfg) e2
  refine all_before hr hj hw ?_
  rcases (owner_frame hs hw).2.2.2.2.2.2.1 ⟨b, hl⟩ with h | h | h
  · exact absurd h (hJ.err hfd).2
  · exact .inl (.inl h)
  · exact .inr h

/-- C152, the destructor: when it has returned, everything the callback ever does happened before. -/
theorem C152_destructor (cfg : Cfg) (acts : List Act) (s : St) (hr : run cfg (init cfg) acts = some s)
    (j : Nat) (y : Step) (hj : (trace cfg (init cfg) acts)[j]? = some y) (hc : y.destroys cfg) : AllBefore (trace cfg (init cfg) acts) j := by
  obtain ⟨s', hs, hl⟩ := hc
  have hw := not_worker hs hl (by intro e h; cases h)
  exact all_before hr hj hw (.inl (.inr (.inl ((owner_frame hs hw).2.2.2.2.2.2.2 hl))))

/-- The callback is running, or is inside a `close()` it called. -/
private def Busy (w : WPc) : Prop := (∃ n, w = .inCb n) ∨ ∃ c n, w = .selfClose c n

private theorem owner_log {cfg : Cfg} {s s' : St} {a : Act} (h : step cfg s a = some s') (hw : Step.worker ⟨s, a⟩ = false) (e : Ev) : s'.log ≠ s.log ++ [.cb e] := by
  intro hl
  cases a with
  | o =>
    simp only [step] at h
    cases hs : s.o with
    | idle => simp only [oStep, hs] at h; cases h
    | gone => simp only [oStep, hs] at h; cases h
    | dtorFd => simp only [oStep, hs] at h; cases h; simp at hl
    | dtorFuture =>
      simp only [oStep, hs] at h
      split at h
      · split at h
        · cases h
        · cases h; simp at hl
      · cases h; simp at hl
    | closing c =>
      simp only [oStep, hs] at h
      split at h
      · cases h
      · rename_i hc; cases h; simp [(closeStep_frame hc).1] at hl
      · rename_i hc; cases h; simp [(closeStep_frame hc).1] at hl
    | dtorClosing c =>
      simp only [oStep, hs] at h
      split at h
      · cases h
      · rename_i hc; cases h; simp [(closeStep_frame hc).1] at hl
      · rename_i hc; cases h; simp [(closeStep_frame hc).1] at hl
  | oClose =>
    simp only [step] at h
    split at h
    · cases h; simp at hl
    · cases h
  | oDtor =>
    simp only [step] at h
    split at h
    · cases h; simp at hl
    · cases h
  | _ => cases hw

private theorem busy_step {cfg : Cfg} {s s' : St} {a : Act} (h : step cfg s a = some s') (hb : Busy s.w) (ha : a ≠ .cbReturn) : Busy s'.w ∧ ∀ e, s'.log ≠ s.log ++ [.cb e] := by
  cases hw : Step.worker ⟨s, a⟩ with
  | false => exact ⟨by rw [(owner_frame h hw).1]; exact hb, owner_log h hw⟩
  | true =>
    rcases hb with ⟨n, hn⟩ | ⟨c, n, hn⟩
    · cases a with
      | cbReturn => exact absurd rfl ha
      | cbClose => simp only [step, hn] at h; cases h; exact ⟨.inr ⟨_, _, rfl⟩, fun e he => by simp at he⟩
      | o => cases hw
      | oClose => cases hw
      | oDtor => cases hw
      | _ => simp only [step, wStep, hn] at h; cases h
    · cases a with
      | w =>
        simp only [step, wStep, hn] at h
        split at h
        · cases h
        · rename_i hc; cases h; exact ⟨.inr ⟨_, _, rfl⟩, fun e he => by simp [(closeStep_frame hc).1] at he⟩
        · rename_i hc; cases h; exact ⟨.inl ⟨_, rfl⟩, fun e he => by simp [(closeStep_frame hc).1] at he⟩
      | o => cases hw
      | oClose => cases hw
      | oDtor => cases hw
      | _ => simp only [step, hn] at h; cases h

private theorem called_busy {cfg : Cfg} {s s' : St} {a : Act} {e : Ev} (h : step cfg s a = some s') (hl : s'.log = s.log ++ [.cb e]) : Step.worker ⟨s, a⟩ = true ∧ Busy s'.w := by
  cases hw : Step.worker ⟨s, a⟩ with
  | false => exact absurd hl (owner_log h hw e)
  | true =>
    refine ⟨rfl, ?_⟩
    cases a with
    | o => cases hw
    | oClose => cases hw
    | oDtor => cases hw
    | w =>
      simp only [step] at h
      cases hs : s.w with
      | selfClose c next =>
        simp only [wStep, hs] at h
        split at h
        · cases h
        · rename_i hc; cases h; simp [(closeStep_frame hc).1] at hl
        · rename_i hc; cases h; simp [(closeStep_frame hc).1] at hl
      | aEvs sec evs r items =>
        cases evs <;> simp only [wStep, hs] at h <;> cases h
        · simp at hl
        · exact .inl ⟨_, rfl⟩
      | aItems sec ok items =>
        cases items with
        | nil => simp only [wStep, hs] at h; cases h; simp at hl
        | cons i items => cases i <;> simp only [wStep, hs] at h <;> cases h <;> simp at hl
      | aDone sec r =>
        simp only [wStep, hs] at h
        split at h
        · cases h; simp at hl
        · split at h <;> cases h
          · exact .inl ⟨_, rfl⟩
          · simp at hl
      | _ => simp only [wStep, hs] at h <;> cases h <;> first | exact .inl ⟨_, rfl⟩ | (simp at hl; done)
    | _ =>
      simp only [step] at h
      split at h
      · first
          | (cases h; simp at hl; done)
          | (split at h
             · cases h; simp at hl
             · cases h)
      · cases h

private theorem returns_first {cfg : Cfg} {e : Ev} {s2 : St} {y : Step} (h2 : step cfg y.before y.act = some s2) (hl : s2.log = y.before.log ++ [.cb e]) (acts : List Act) :
    ∀ (s : St) (j : Nat), Busy s.w → (trace cfg s acts)[j]? = some y → ∃ k z, k < j ∧ (trace cfg s acts)[k]? = some z ∧ z.act = .cbReturn := by
  induction acts with
  | nil => intro s j _ h; simp [trace] at h
  | cons a as ih =>
    intro s j hb h
    by_cases ha : a = .cbReturn
    · subst ha
      cases j with
      | zero =>
        simp [trace] at h
        subst h
        exfalso
        rcases hb with ⟨n, hn⟩ | ⟨c, n, hn⟩
        · simp only [step, hn] at h2; cases h2; simp at hl
        · simp only [step, hn] at h2; cases h2
      | succ j => exact ⟨0, ⟨s, .cbReturn⟩, by omega, by simp [trace], rfl⟩
    · cases h1 : step cfg s a with
      | none =>
        cases j with
        | zero => simp [trace] at h; subst h; rw [h1] at h2; cases h2
        | succ j => simp [trace, h1] at h
      | some s1 =>
        cases j with
        | zero => simp [trace] at h; subst h; exact absurd hl ((busy_step h2 hb ha).2 e)
        | succ j =>
          simp [trace, h1] at h
          obtain ⟨k, z, hk, hz, hr⟩ := ih s1 j (busy_step h1 hb ha).1 h
          exact ⟨k + 1, z, by omega, by simp [trace, h1, hz], hr⟩

private theorem between {cfg : Cfg} {e f : Ev} {s1 s2 : St} {x y : Step} (h1 : step cfg x.before x.act = some s1) (he : s1.log = x.before.log ++ [.cb e])
    (h2 : step cfg y.before y.act = some s2) (hf : s2.log = y.before.log ++ [.cb f]) (acts : List Act) :
    ∀ (s : St) (i j : Nat), i < j → (trace cfg s acts)[i]? = some x → (trace cfg s acts)[j]? = some y →
      ∃ k z, i < k ∧ k < j ∧ (trace cfg s acts)[k]? = some z ∧ z.act = .cbReturn := by
  induction acts with
  | nil => intro s i j _ h; simp [trace] at h
  | cons a as ih =>
    intro s i j hij hx hy
    obtain ⟨j, rfl⟩ : ∃ j', j = j' + 1 := ⟨j - 1, by omega⟩
    cases hs : step cfg s a with
    | none => simp [trace, hs] at hy
    | some s' =>
      simp [trace, hs] at hy
      cases i with
      | zero =>
        simp [trace] at hx
        subst hx
        rw [hs] at h1
        obtain rfl : s' = s1 := by cases h1; rfl
        obtain ⟨k, z, hk, hz, hr⟩ := returns_first h2 hf as s' j (called_busy hs he).2 hy
        exact ⟨k + 1, z, by omega, by omega, by simp [trace, hs, hz], hr⟩
      | succ i =>
        simp [trace, hs] at hx
        obtain ⟨k, z, hk, hkj, hz, hr⟩ := ih s' i j (by omega) hx hy
        exact ⟨k + 1, z, by omega, by omega, by simp [trace, hs, hz], hr⟩

/-- C152, the callback needs no locks for itself: of two calls the earlier has returned before the later begins, and happens before it. -/
theorem C152_callbacks (cfg : Cfg) (acts : List Act) (s s1 s2 : St) (i j : Nat) (x y : Step) (e f : Ev) (hij : i < j)
    (hx : (trace cfg s acts)[i]? = some x) (hy : (trace cfg s acts)[j]? = some y)
    (h1 : step cfg x.before x.act = some s1) (he : s1.log = x.before.log ++ [.cb e]) (h2 : step cfg y.before y.act = some s2) (hf : s2.log = y.before.log ++ [.cb f]) :
    ∃ k z, (trace cfg s acts)[k]? = some z ∧ z.act = .cbReturn ∧ HB (trace cfg s acts) i k ∧ HB (trace cfg s acts) k j := by
  obtain ⟨k, z, hik, hkj, hz, hr⟩ := between h1 he h2 hf acts s i j hij hx hy
  have hxw := (called_busy h1 he).1
  have hyw := (called_busy h2 hf).1
  have hzw : z.worker = true := by simp [Step.worker, hr]
  exact ⟨k, z, hz, hr, .thread hik hx hz (by rw [hzw]; exact hxw), .thread hkj hz hy (by rw [hzw]; exact hyw.symm)⟩

/-! ### Without a stop signal -/

private def cfgM : Cfg := { path := b!"/r", dirOk := true, fdOk := false }
private def actsM : List Act := [.w, .w, .w, .oClose, .o, .o, .o, .o, .cbReturn]

private theorem hb_there {t : List Step} {i j : Nat} (hb : HB t i j) : (∃ x, t[i]? = some x) ∧ ∃ y, t[j]? = some y := by
  induction hb with
  | thread _ h1 h2 _ => exact ⟨⟨_, h1⟩, _, h2⟩
  | sync _ h1 h2 _ => exact ⟨⟨_, h1⟩, _, h2⟩
  | trans _ _ a b => exact ⟨a.1, b.2⟩

private theorem hb_same {t : List Step} (h : ∀ y ∈ t, ¬ y.obtains) {i j : Nat} (hb : HB t i j) : ∀ x y, t[i]? = some x → t[j]? = some y → x.worker = y.worker := by
  induction hb with
  | thread _ h1 h2 h3 => intro x y hx hy; rw [h1] at hx; rw [h2] at hy; cases hx; cases hy; exact h3
  | sync _ _ h2 h4 => exact absurd h4.2 (h _ (List.mem_of_getElem? h2))
  | trans a b iha ihb =>
    intro x z hx hz
    obtain ⟨y, hy⟩ := (hb_there a).2
    rw [iha x y hx hy, ihb y z hy hz]

private instance (x : Step) : Decidable x.obtains := by unfold Step.obtains; infer_instance

/-- C152 in full is false of the code: without an event descriptor `close()` returns `false` at once, while the callback runs. -/
theorem C152_refuted : ¬ C152_full := by
  intro h
  have hrun : ∃ s, run cfgM (init cfgM) actsM = some s := ⟨_, rfl⟩
  obtain ⟨s, hs⟩ := hrun
  have hcl : ∃ y, (trace cfgM (init cfgM) actsM)[7]? = some y ∧ y.closes cfgM ∧ y.worker = false := ⟨_, rfl, ⟨_, false, rfl, rfl⟩, rfl⟩
  obtain ⟨y, hy, hc, hyw⟩ := hcl
  have hx : ∃ x, (trace cfgM (init cfgM) actsM)[2]? = some x ∧ x.worker = true := ⟨_, rfl, rfl⟩
  obtain ⟨x, hx, hxw⟩ := hx
  have := hb_same (by decide +kernel) (h cfgM actsM s hs 7 y hy hc 2 x hx hxw) x y hx hy
  rw [hxw, hyw] at this
  cases this

/-- The hypotheses are met: a watch that is closed by its owner (the wake-up brings the stop signal), closed again and destroyed. -/
private def cfgN : Cfg := { path := b!"/r", dirOk := true, fdOk := true }
private def actsN : List Act := [.w, .w, .w, .cbReturn, .wOpen [] .eFanotify, .w, .w, .w, .wOpen [] .pending, .w, .w, .oClose, .o, .o, .o, .o, .wWake [.il], .w, .w, .w, .w, .cbReturn,
  .w, .o, .oClose, .o, .o, .oDtor, .o, .o, .o, .o]

example : ∃ s, run cfgN (init cfgN) actsN = some s ∧ s.log = [.cb (liveEv b!"/r" true), .closeCall, .cb (dieEv b!"/r" true), .closeRet true, .closeCall, .closeRet false, .dtorCall, .dtorRet] := ⟨_, rfl, rfl⟩
example : ∃ y, (trace cfgN (init cfgN) actsN)[23]? = some y ∧ y.closes cfgN := ⟨_, rfl, _, true, rfl, rfl⟩
example : ∃ y, (trace cfgN (init cfgN) actsN)[26]? = some y ∧ y.closes cfgN := ⟨_, rfl, _, false, rfl, rfl⟩
example : ∃ y, (trace cfgN (init cfgN) actsN)[31]? = some y ∧ y.destroys cfgN := ⟨_, rfl, _, rfl, rfl⟩

end Verif.Props
