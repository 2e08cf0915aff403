import Verif.Spec.PyLoad
/-!
# C138: Python objects made in several threads
-/

namespace Verif.Props
open Verif Verif.Model.PyLoad Verif.Spec.PyLoad

/-- C138: `Watch` objects may be made and closed in any threads, the first ones included: each closes just the watch it opened,
and the C library is never given an address that is not one of its watches. -/
def C138_full : Prop := ∀ acts : List Act, ∃ o, run {} acts = .ok o ∧ ∀ s, o = some s → Right s.log

/-- Object 0 loads the library; object 1 is made when `_LIB` is set and the types are not. -/
def halfLoaded : List Act :=
  [.make 0, .step 0 true 0, .step 0 true 0, .step 0 true 0,
   .make 1, .step 1 true 0, .step 1 true 0, .step 1 true 0, .step 1 true 94558312251040, .close 1]

theorem C138_refuted : ¬ C138_full := by
  intro h
  obtain ⟨o, h, _⟩ := h halfLoaded
  have : (match run {} halfLoaded with | .ok _ => true | .ub _ => false) = false := by decide +kernel
  rw [h] at this; cases this

namespace Load138

/-- The library after `k` of the four lines. -/
def upto (k : Nat) : Lib := ⟨decide (0 < k), decide (1 < k), decide (2 < k), decide (3 < k)⟩

theorem put_upto {k} (h : k ≤ 3) : (upto k).put k = upto (k + 1) := by
  have : k = 0 ∨ k = 1 ∨ k = 2 ∨ k = 3 := by omega
  rcases this with rfl | rfl | rfl | rfl <;> rfl

/-- Not loading; with the library 0, if any. -/
def Uses : Pc → Prop
  | .load | .assign _ | .put _ => False
  | .encode i | .open_ i | .made i _ => i = 0
  | _ => True

/-- Before the call of the C library. -/
def Early : Pc → Prop
  | .made _ _ | .closed | .raised => False
  | _ => True

/-- The library is loaded, and all objects use it. -/
def Loaded (s : St) : Prop := s.glob = some 0 ∧ s.libs = [upto 4] ∧ ∀ u, Uses (s.pc u)

/-- `t` is loading it. -/
def Loading (t : Nat) (s : St) : Prop :=
  (∀ u, u ≠ t → s.pc u = .none) ∧ match s.pc t with
    | .none | .check | .load => s.glob = none ∧ s.libs = []
    | .assign i => i = 0 ∧ s.glob = none ∧ s.libs = [upto 0]
    | .put k => k ≤ 3 ∧ s.glob = some 0 ∧ s.libs = [upto k]
    | .raised => True
    | _ => False

/-- What an object has done, given where it is. -/
def Done (s : St) (u : Nat) : Prop :=
  match s.pc u with
  | .made _ v => s.log.filter (about u) = [.opened u v] ∧ v ∈ s.live
  | .closed => ∃ p, s.log.filter (about u) = [.opened u p, .close u p]
  | .raised => s.log.filter (about u) = [.error u]
  | _ => s.log.filter (about u) = []

structure Inv (t : Nat) (s : St) : Prop where
  stage : Loading t s ∨ Loaded s
  done : ∀ u, Done s u
  apart : ∀ u w i j v, s.pc u = .made i v → s.pc w = .made j v → u = w

theorem Inv.right {t s} (h : Inv t s) : Right s.log := by
  intro u
  have := h.done u
  unfold Done at this
  split at this
  · exact .inr ⟨_, by rw [this.1]; exact ⟨[_], rfl⟩⟩
  · obtain ⟨p, hp⟩ := this; exact .inr ⟨p, by rw [hp]; exact List.prefix_refl _⟩
  · exact .inl this
  · exact .inr ⟨0, by rw [this]; exact List.nil_prefix⟩

@[simp] theorem at_self (s : St) (t : Nat) (c : Pc) : (s.at t c).pc t = c := by simp [St.at]
theorem at_ne (s : St) {t u : Nat} (c : Pc) (h : u ≠ t) : (s.at t c).pc u = s.pc u := by simp [St.at, h]
@[simp] theorem at_log (s : St) (t : Nat) (c : Pc) : (s.at t c).log = s.log := rfl
@[simp] theorem at_live (s : St) (t : Nat) (c : Pc) : (s.at t c).live = s.live := rfl
@[simp] theorem at_libs (s : St) (t : Nat) (c : Pc) : (s.at t c).libs = s.libs := rfl
@[simp] theorem at_glob (s : St) (t : Nat) (c : Pc) : (s.at t c).glob = s.glob := rfl

theorem init_inv (t : Nat) : Inv t {} := by
  refine ⟨.inl ⟨fun _ _ => rfl, rfl, rfl⟩, fun u => rfl, ?_⟩
  intro u w i j v h; cases h

/-- Another object's record does not change when `u` does something. -/
theorem filter_other {w u : Nat} (h : w ≠ u) {l : List Obs} {o : Obs} (ho : about u o = true) :
    (l ++ [o]).filter (about w) = l.filter (about w) := by
  have : about w o = false := by
    cases o <;> simp [about] at ho ⊢ <;> (subst ho; exact fun e => h e.symm)
  simp [this]

/-- `u` moves without using the C library. -/
theorem Inv.quiet {t s s'} (h : Inv t s) {u : Nat} {c : Pc} (hpc : s'.pc = (s.at u c).pc) (hlog : s'.log = s.log)
    (hlive : s'.live = s.live) (hst : Loading t s' ∨ Loaded s')
    (hold : s.log.filter (about u) = [])
    (hnew : Early c) : Inv t s' := by
  have hself : s'.pc u = c := by rw [hpc]; simp
  have hne : ∀ w, w ≠ u → s'.pc w = s.pc w := fun w hw => by rw [hpc]; exact at_ne _ _ hw
  refine ⟨hst, ?_, ?_⟩
  · intro w
    by_cases e : w = u
    · subst e
      unfold Done; rw [hself, hlog]
      cases c <;> simp_all [Early]
    · have := h.done w
      unfold Done at this ⊢
      rw [hne w e, hlog, hlive]; exact this
  · intro a b i j v ha hb
    have : ∀ x i, s'.pc x = .made i v → s.pc x = .made i v := by
      intro x i hx
      by_cases e : x = u
      · subst e; rw [hself] at hx; subst hx; cases hnew
      · rwa [hne x e] at hx
    exact h.apart a b i j v (this a i ha) (this b j hb)

/-- The constructor of `u` raises an error. -/
theorem Inv.fails {t s s'} (h : Inv t s) {u : Nat} (hpc : s'.pc = (s.at u .raised).pc) (hlog : s'.log = s.log ++ [.error u])
    (hlive : s'.live = s.live) (hst : Loading t s' ∨ Loaded s')
    (hold : s.log.filter (about u) = []) : Inv t s' := by
  have hself : s'.pc u = .raised := by rw [hpc]; simp
  have hne : ∀ w, w ≠ u → s'.pc w = s.pc w := fun w hw => by rw [hpc]; exact at_ne _ _ hw
  refine ⟨hst, ?_, ?_⟩
  · intro w
    by_cases e : w = u
    · subst e
      unfold Done; rw [hself, hlog]
      simp [List.filter_append, hold, about]
    · have := h.done w
      unfold Done at this ⊢
      rw [hne w e, hlog, hlive, filter_other e (by simp [about])]; exact this
  · intro a b i j v ha hb
    have : ∀ x i, s'.pc x = .made i v → s.pc x = .made i v := by
      intro x i hx
      by_cases e : x = u
      · subst e; rw [hself] at hx; cases hx
      · rwa [hne x e] at hx
    exact h.apart a b i j v (this a i ha) (this b j hb)

theorem nothing {s u} (h : Done s u) (hc : Early (s.pc u)) :
    s.log.filter (about u) = [] := by
  unfold Done at h
  split at h <;> simp_all [Early]

theorem Loaded.move {s s' : St} (h : Loaded s) {u c} (hpc : s'.pc = (s.at u c).pc) (hg : s'.glob = s.glob) (hl : s'.libs = s.libs)
    (hc : Uses c) : Loaded s' := by
  refine ⟨by rw [hg, h.1], by rw [hl, h.2.1], ?_⟩
  intro w
  by_cases e : w = u
  · subst e; rw [hpc, at_self]; exact hc
  · rw [hpc, at_ne _ _ e]; exact h.2.2 w

theorem Loading.other {t s u} (h : Loading t s) (hu : s.pc u ≠ .none) : u = t := by
  by_cases e : u = t
  · exact e
  · exact absurd (h.1 u e) hu

theorem cstep_inv {t s s' u ok p} (h : Inv t s) (hs : cstep s u ok p = some s') : Inv t s' := by
  have hd := h.done u
  unfold cstep at hs
  split at hs
  · -- check
    rename_i hpc
    cases hs
    refine h.quiet (c := if s.glob = none then .load else .ret) rfl rfl rfl ?_ (nothing hd (by rw [hpc]; trivial)) (by split <;> trivial)
    rcases h.stage with hl | hl
    · have := hl.other (u := u) (by simp [hpc]); subst this
      obtain ⟨h1, h2⟩ := hl
      rw [hpc] at h2
      simp only at h2
      rw [if_pos h2.1]
      exact .inl ⟨fun w hw => by rw [at_ne _ _ hw]; exact h1 w hw, by rw [at_self]; exact h2⟩
    · right
      rw [if_neg (by rw [hl.1]; simp)]
      exact hl.move rfl rfl rfl trivial
  · -- load
    rename_i hpc
    have hl : Loading t s := by
      rcases h.stage with hl | hl
      · exact hl
      · have := hl.2.2 u; rw [hpc] at this; exact this.elim
    have := hl.other (u := u) (by simp [hpc]); subst this
    obtain ⟨h1, h2⟩ := hl
    rw [hpc] at h2
    simp only at h2
    split at hs <;> cases hs
    · refine h.quiet rfl rfl rfl ?_ (nothing hd (by rw [hpc]; trivial)) trivial
      refine .inl ⟨fun w hw => ?_, ?_⟩
      · rw [at_ne _ _ hw]; exact h1 w hw
      · rw [at_self]; simp [h2]; rfl
    · refine h.fails rfl rfl rfl ?_ (nothing hd (by rw [hpc]; trivial))
      refine .inl ⟨fun w hw => ?_, ?_⟩
      · rw [at_ne _ _ hw]; exact h1 w hw
      · rw [at_self]; trivial
  · -- assign
    rename_i i hpc
    have hl : Loading t s := by
      rcases h.stage with hl | hl
      · exact hl
      · have := hl.2.2 u; rw [hpc] at this; exact this.elim
    have := hl.other (u := u) (by simp [hpc]); subst this
    obtain ⟨h1, h2⟩ := hl
    rw [hpc] at h2
    obtain ⟨rfl, _, h2⟩ := h2
    cases hs
    refine h.quiet rfl rfl rfl ?_ (nothing hd (by rw [hpc]; trivial)) trivial
    refine .inl ⟨fun w hw => ?_, ?_⟩
    · rw [at_ne _ _ hw]; exact h1 w hw
    · rw [at_self]; exact ⟨by omega, rfl, h2⟩
  · -- put
    rename_i k hpc
    have hl : Loading t s := by
      rcases h.stage with hl | hl
      · exact hl
      · have := hl.2.2 u; rw [hpc] at this; exact this.elim
    have := hl.other (u := u) (by simp [hpc]); subst this
    obtain ⟨h1, h2⟩ := hl
    rw [hpc] at h2
    obtain ⟨hk, hg, h2⟩ := h2
    rw [hg] at hs
    cases hs
    have hm : s.libs.modify 0 (·.put k) = [upto (k + 1)] := by
      rw [h2, ← put_upto hk]; rfl
    refine h.quiet (c := if k < 3 then .put (k + 1) else .ret) rfl rfl rfl ?_ (nothing hd (by rw [hpc]; trivial)) (by split <;> trivial)
    by_cases hk3 : k < 3
    · rw [if_pos hk3]
      refine .inl ⟨fun w hw => ?_, ?_⟩
      · rw [at_ne _ _ hw]; exact h1 w hw
      · rw [at_self]; exact ⟨by omega, rfl, hm⟩
    · rw [if_neg hk3]
      have : k = 3 := by omega
      subst this
      refine .inr ⟨rfl, hm, fun w => ?_⟩
      by_cases e : w = u
      · subst e; rw [at_self]; trivial
      · rw [at_ne _ _ e]
        have := h1 w e
        show Uses (s.pc w)
        rw [this]; trivial
  · -- ret
    rename_i hpc
    have hl : Loaded s := by
      rcases h.stage with hl | hl
      · have := hl.other (u := u) (by simp [hpc]); subst this
        have := hl.2; rw [hpc] at this; exact this.elim
      · exact hl
    rw [hl.1] at hs
    cases hs
    exact h.quiet rfl rfl rfl (.inr (hl.move rfl rfl rfl rfl)) (nothing hd (by rw [hpc]; trivial)) trivial
  · -- encode
    rename_i i hpc
    have hl : Loaded s := by
      rcases h.stage with hl | hl
      · have := hl.other (u := u) (by simp [hpc]); subst this
        have := hl.2; rw [hpc] at this; exact this.elim
      · exact hl
    have hi : i = 0 := by have := hl.2.2 u; rw [hpc] at this; exact this
    split at hs <;> cases hs
    · exact h.quiet rfl rfl rfl (.inr (hl.move rfl rfl rfl hi)) (nothing hd (by rw [hpc]; trivial)) trivial
    · exact h.fails rfl rfl rfl (.inr (hl.move rfl rfl rfl trivial)) (nothing hd (by rw [hpc]; trivial))
  · -- open
    rename_i i hpc
    have hl : Loaded s := by
      rcases h.stage with hl | hl
      · have := hl.other (u := u) (by simp [hpc]); subst this
        have := hl.2; rw [hpc] at this; exact this.elim
      · exact hl
    have hi : i = 0 := by have := hl.2.2 u; rw [hpc] at this; exact this
    subst hi
    have hn := nothing hd (by rw [hpc]; trivial)
    split at hs
    · rename_i hp
      have hv : (s.libs[0]?.getD ({} : Lib)).openRes = true := by rw [hl.2.1]; rfl
      simp only [hv, if_true] at hs
      rw [if_neg (by omega)] at hs
      cases hs
      refine ⟨.inr (hl.move rfl rfl rfl rfl), ?_, ?_⟩
      · intro w
        by_cases e : w = u
        · subst e
          unfold Done; rw [at_self]
          simp [List.filter_append, hn, about]
        · have := h.done w
          unfold Done at this ⊢
          rw [at_ne _ _ e, at_log, at_live]
          show match s.pc w with
            | .made _ v => (s.log ++ [Obs.opened u p]).filter (about w) = [.opened w v] ∧ v ∈ s.live ++ [p]
            | .closed => ∃ q, (s.log ++ [Obs.opened u p]).filter (about w) = [.opened w q, .close w q]
            | .raised => (s.log ++ [Obs.opened u p]).filter (about w) = [.error w]
            | _ => (s.log ++ [Obs.opened u p]).filter (about w) = []
          rw [filter_other e (by simp [about])]
          cases hw : s.pc w <;> rw [hw] at this <;> simp_all
      · have key : ∀ w j, w ≠ u → s.pc w = .made j p → False := by
          intro w j _ hw
          have := h.done w
          unfold Done at this; rw [hw] at this
          exact hp.2 this.2
        intro a b i j v ha hb
        by_cases ea : a = u <;> by_cases eb : b = u
        · rw [ea, eb]
        · subst ea; rw [at_self] at ha; cases ha
          rw [at_ne _ _ eb] at hb
          exact (key b j eb hb).elim
        · subst eb; rw [at_self] at hb; cases hb
          rw [at_ne _ _ ea] at ha
          exact (key a i ea ha).elim
        · rw [at_ne _ _ ea] at ha; rw [at_ne _ _ eb] at hb
          exact h.apart a b i j v ha hb
    · cases hs
  · cases hs

theorem step_inv {t s a} (h : Inv t s) (hm : ∀ u, a = .make u → u ≠ t → ∃ p, Obs.opened t p ∈ s.log) :
    ∃ o, step s a = .ok o ∧ ∀ s', o = some s' → Inv t s' := by
  cases a with
  | make u =>
    simp only [step]
    split
    · rename_i hpc
      refine ⟨_, rfl, ?_⟩; rintro s' ⟨⟩
      refine h.quiet rfl rfl rfl ?_ (nothing (h.done u) (by rw [hpc]; trivial)) trivial
      rcases h.stage with hl | hl
      · by_cases e : u = t
        · subst e
          obtain ⟨h1, h2⟩ := hl
          rw [hpc] at h2
          exact .inl ⟨fun w hw => by rw [at_ne _ _ hw]; exact h1 w hw, by rw [at_self]; exact h2⟩
        · exfalso
          obtain ⟨p, hp⟩ := hm u rfl e
          have hmem : Obs.opened t p ∈ s.log.filter (about t) := List.mem_filter.mpr ⟨hp, by simp [about]⟩
          have hd := h.done t
          have h2 := hl.2
          unfold Done at hd
          cases ht : s.pc t <;> rw [ht] at hd h2 <;> simp only at hd h2 <;> first | exact h2.elim | (rw [hd] at hmem; simp at hmem)
      · exact .inr (hl.move rfl rfl rfl trivial)
    · exact ⟨none, rfl, by simp⟩
  | step u ok p =>
    exact ⟨_, rfl, fun s' hs => cstep_inv h hs⟩
  | close u =>
    simp only [step]
    split
    · rename_i i v hpc
      have hl : Loaded s := by
        rcases h.stage with hl | hl
        · have := hl.other (u := u) (by simp [hpc]); subst this
          have := hl.2; rw [hpc] at this; exact this.elim
        · exact hl
      have hi : i = 0 := by have := hl.2.2 u; rw [hpc] at this; exact this
      subst hi
      have hv : (s.libs[0]?.getD ({} : Lib)).closeArgs = true := by rw [hl.2.1]; rfl
      have hd := h.done u
      unfold Done at hd; rw [hpc] at hd
      simp only at hd
      simp only [hv, if_true]
      rw [if_pos (by simpa using hd.2)]
      refine ⟨_, rfl, ?_⟩; rintro s' ⟨⟩
      refine ⟨.inr (hl.move rfl rfl rfl trivial), ?_, ?_⟩
      · intro w
        by_cases e : w = u
        · subst e
          unfold Done; rw [at_self]
          exact ⟨v, by simp [List.filter_append, hd.1, about]⟩
        · have hw' := h.done w
          unfold Done at hw' ⊢
          rw [at_ne _ _ e, at_log, at_live]
          show match s.pc w with
            | .made _ x => (s.log ++ [Obs.close u v]).filter (about w) = [.opened w x] ∧ x ∈ s.live.erase v
            | .closed => ∃ q, (s.log ++ [Obs.close u v]).filter (about w) = [.opened w q, .close w q]
            | .raised => (s.log ++ [Obs.close u v]).filter (about w) = [.error w]
            | _ => (s.log ++ [Obs.close u v]).filter (about w) = []
          rw [filter_other e (by simp [about])]
          cases hw : s.pc w <;> rw [hw] at hw' <;> simp only at hw' ⊢ <;> first | exact hw' | skip
          rename_i j x
          refine ⟨hw'.1, (List.mem_erase_of_ne ?_).mpr hw'.2⟩
          rintro rfl
          exact e (h.apart w u j 0 x hw hpc)
      · intro a b i j x ha hb
        have : ∀ y i, (St.at { s with live := s.live.erase v, log := s.log ++ [.close u v] } u .closed).pc y = .made i x → s.pc y = .made i x := by
          intro y i hy
          by_cases e : y = u
          · subst e; rw [at_self] at hy; cases hy
          · rwa [at_ne _ _ e] at hy
        exact h.apart a b i j x (this a i ha) (this b j hb)
    · refine ⟨_, rfl, ?_⟩; rintro s' ⟨⟩; exact h
    · exact ⟨none, rfl, by simp⟩

theorem run_append {s s' : St} {as bs} (h : run s as = .ok (some s')) : run s (as ++ bs) = run s' bs := by
  induction as generalizing s with
  | nil => cases h; rfl
  | cons a as ih =>
    simp only [run, List.cons_append] at h ⊢
    cases hs : step s a with
    | ub w => rw [hs] at h; cases h
    | ok o =>
      cases o with
      | none => rw [hs] at h; cases h
      | some s1 => rw [hs] at h; exact ih h

theorem cstep_errors {t s s' u p} (h : Inv t s) (hs : cstep s u true p = some s') (w : Nat) (hw : Obs.error w ∈ s'.log) :
    Obs.error w ∈ s.log := by
  unfold cstep at hs
  split at hs
  · cases hs; exact hw
  · cases hs; exact hw
  · cases hs; exact hw
  · split at hs <;> cases hs; exact hw
  · split at hs <;> cases hs; exact hw
  · cases hs; exact hw
  · rename_i i hpc
    have hl : Loaded s := by
      rcases h.stage with hl | hl
      · have := hl.other (u := u) (by simp [hpc]); subst this
        have := hl.2; rw [hpc] at this; exact this.elim
      · exact hl
    have hi : i = 0 := by have := hl.2.2 u; rw [hpc] at this; exact this
    subst hi
    split at hs
    · rename_i hp
      have hv : (s.libs[0]?.getD ({} : Lib)).openRes = true := by rw [hl.2.1]; rfl
      simp only [hv, if_true] at hs
      rw [if_neg (by omega)] at hs
      cases hs
      simpa using hw
    · cases hs
  · cases hs

theorem step_errors {t s s' a} (h : Inv t s) (ha : ∀ u p, a ≠ .step u false p) (hs : step s a = .ok (some s')) (w : Nat)
    (hw : Obs.error w ∈ s'.log) : Obs.error w ∈ s.log := by
  cases a with
  | make u => simp only [step] at hs; split at hs <;> cases hs; exact hw
  | step u ok p =>
    cases ok with
    | false => exact absurd rfl (ha u p)
    | true => simp only [step, Outcome.ok.injEq] at hs; exact cstep_errors h hs w hw
  | close u =>
    simp only [step] at hs
    split at hs
    · rename_i i v _
      generalize (if (s.libs[i]?.getD ({} : Lib)).closeArgs = true then v else asInt v) = a at hs
      split at hs <;> cases hs
      simpa using hw
    · cases hs; exact hw
    · cases hs

theorem run_inv {t acts pre s} (h : Inv t s) (hpre : run {} pre = .ok (some s)) (hf : FirstAlone t (pre ++ acts)) :
    ∃ o, run s acts = .ok o ∧ ∀ s', o = some s' → Inv t s' ∧
      ((∀ u p, Act.step u false p ∉ acts) → ∀ w, Obs.error w ∈ s'.log → Obs.error w ∈ s.log) := by
  induction acts generalizing s pre with
  | nil => exact ⟨_, rfl, by rintro s' ⟨⟩; exact ⟨h, fun _ _ h => h⟩⟩
  | cons a as ih =>
    obtain ⟨o, ho, hi⟩ := step_inv (a := a) h (fun u e hu => hf pre u as (by rw [e]) hu s hpre)
    simp only [run, ho, Outcome.bind_ok]
    cases o with
    | none => exact ⟨none, rfl, by simp⟩
    | some s1 =>
      obtain ⟨o, h1, h2⟩ := ih (pre := pre ++ [a]) (hi s1 rfl) (by rw [run_append hpre]; simp [run, ho]) (by simpa using hf)
      refine ⟨o, h1, fun s' hs => ⟨(h2 s' hs).1, fun hn w hw => ?_⟩⟩
      refine step_errors h (fun u p e => hn u p (by simp [e])) ho w ?_
      exact (h2 s' hs).2 (fun u p hm => hn u p (List.mem_cons_of_mem _ hm)) w hw

end Load138

open Load138

/-- C138, part: if one object has opened its watch before another constructor begins, then whatever is done afterwards, in any
threads, each object closes just the watch it opened, and nothing else is given to the C library. -/
theorem C138_first_alone_partial (t : Nat) (acts : List Act) (hf : FirstAlone t acts) :
    ∃ o, run {} acts = .ok o ∧ ∀ s, o = some s → Right s.log := by
  obtain ⟨o, ho, hi⟩ := run_inv (pre := []) (init_inv t) rfl hf
  exact ⟨o, ho, fun s hs => (hi s hs).1.right⟩

/-- C138, part: then a constructor raises an error only if the library is missing or the path cannot be encoded. -/
theorem C138_errors_partial (t : Nat) (acts : List Act) (hf : FirstAlone t acts) (hok : ∀ u p, Act.step u false p ∉ acts) (s : St)
    (hs : run {} acts = .ok (some s)) (u : Nat) : Obs.error u ∉ s.log := by
  obtain ⟨o, ho, hi⟩ := run_inv (pre := []) (init_inv t) rfl hf
  rw [ho] at hs; cases hs
  intro h
  have := (hi s rfl).2 hok u h
  cases this

/-! ### The hypotheses are met -/

/-- The constructor of object `t`, from beginning to end, when it loads the library. -/
def loads (t : Nat) (p : Int) : List Act := .make t :: List.replicate 10 (.step t true p)

/-- Object 0 alone, then 1 and 2 at the same time, and all are closed; 1 twice. -/
def afterwards : List Act :=
  loads 0 94558312251040 ++ [.make 1, .make 2, .step 1 true 0, .step 2 true 0, .step 2 true 0, .step 1 true 0, .step 1 true 0, .step 2 true 0,
    .step 2 true 94558312259999, .step 1 true 94558312255555, .close 1, .close 0, .close 2, .close 1]

def callsOf (acts : List Act) : Option (List Obs) := match run {} acts with | .ok (some s) => some s.log | _ => none

example : callsOf afterwards = some [.opened 0 94558312251040, .opened 2 94558312259999, .opened 1 94558312255555,
    .close 1 94558312255555, .close 0 94558312251040, .close 2 94558312259999] := by decide +kernel

/-- Only after all ten steps of object 0 does another constructor begin. -/
example : FirstAlone 0 afterwards := by
  have key : ∀ k, k < afterwards.length → ∀ u, afterwards[k]? = some (.make u) → u ≠ 0 →
      ∃ l, callsOf (afterwards.take k) = some l ∧ Obs.opened 0 94558312251040 ∈ l := by
    intro k hk u h hu
    have : k < 25 := hk
    have : k = 0 ∨ k = 11 ∨ k = 12 ∨ (∀ v, afterwards[k]? ≠ some (.make v)) := by
      rcases k with _|_|_|_|_|_|_|_|_|_|_|_|_|_|_|_|_|_|_|_|_|_|_|_|_|k <;> first
        | omega | (right; right; right; intro v; simp [afterwards, loads, List.replicate]; done)
    rcases this with rfl | rfl | rfl | h'
    · simp [afterwards, loads] at h; exact absurd h.symm hu
    · exact ⟨[.opened 0 94558312251040], by decide +kernel, by simp⟩
    · exact ⟨[.opened 0 94558312251040], by decide +kernel, by simp⟩
    · exact absurd h (h' u)
  intro pre u post e hu s hs
  have hk : pre.length < afterwards.length := by rw [e]; simp
  obtain ⟨l, h1, h2⟩ := key pre.length hk u (by rw [e]; simp) hu
  have ht : afterwards.take pre.length = pre := by rw [e]; exact List.take_left' rfl
  rw [ht] at h1
  unfold callsOf at h1
  rw [hs] at h1; cases h1
  exact ⟨_, h2⟩

/-- If the low half of the address is zero, the second object even says that it could not be opened, and nobody closes its watch. -/
example : callsOf (halfLoaded.take 8 ++ [.step 1 true 94489280512]) = some [.opened 1 94489280512, .error 1] := by decide +kernel

end Verif.Props
