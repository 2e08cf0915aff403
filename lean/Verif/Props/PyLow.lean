import Verif.Props.PyLoad
/-!
# C138, another part: when the addresses of the C library's watches fit into an `int`
-/

namespace Verif.Props
open Verif Verif.Model Verif.Model.PyLoad Verif.Spec.PyLoad Load138

namespace Low138

structure Low (s : St) : Prop where
  done : ∀ u, Done s u
  apart : ∀ u w i j v, s.pc u = .made i v → s.pc w = .made j v → u = w
  small : ∀ u i v, s.pc u = .made i v → 0 < v ∧ v < 2147483648

theorem asInt_low {v : Int} (h0 : 0 < v) (h : v < 2147483648) : asInt v = v := by
  unfold asInt
  have : v % 4294967296 = v := Int.emod_eq_of_lt (by omega) (by omega)
  simp only [this]
  rw [if_pos h]

theorem Low.right {s} (h : Low s) : Right s.log := by
  intro u
  have := h.done u
  unfold Done at this
  split at this
  · exact .inr ⟨_, by rw [this.1]; exact ⟨[_], rfl⟩⟩
  · obtain ⟨p, hp⟩ := this; exact .inr ⟨p, by rw [hp]; exact List.prefix_refl _⟩
  · exact .inl this
  · exact .inr ⟨0, by rw [this]; exact List.nil_prefix⟩

/-- `u` moves without using the C library. -/
theorem Low.quiet {s s'} (h : Low s) {u : Nat} {c : Pc} (hpc : s'.pc = (s.at u c).pc) (hlog : s'.log = s.log)
    (hlive : s'.live = s.live) (hold : s.log.filter (about u) = []) (hnew : Early c) : Low s' := by
  have hself : s'.pc u = c := by rw [hpc]; simp
  have hne : ∀ w, w ≠ u → s'.pc w = s.pc w := fun w hw => by rw [hpc]; exact at_ne _ _ hw
  have hm : ∀ x i v, s'.pc x = .made i v → s.pc x = .made i v := by
    intro x i v hx
    by_cases e : x = u
    · subst e; rw [hself] at hx; subst hx; cases hnew
    · rwa [hne x e] at hx
  refine ⟨?_, fun a b i j v ha hb => h.apart a b i j v (hm _ _ _ ha) (hm _ _ _ hb), fun a i v ha => h.small a i v (hm _ _ _ ha)⟩
  intro w
  by_cases e : w = u
  · subst e
    unfold Done; rw [hself, hlog]
    cases c <;> simp_all [Early]
  · have := h.done w
    unfold Done at this ⊢
    rw [hne w e, hlog, hlive]; exact this

/-- The constructor of `u` raises an error. -/
theorem Low.fails {s s'} (h : Low s) {u : Nat} (hpc : s'.pc = (s.at u .raised).pc) (hlog : s'.log = s.log ++ [.error u])
    (hlive : s'.live = s.live) (hold : s.log.filter (about u) = []) : Low s' := by
  have hself : s'.pc u = .raised := by rw [hpc]; simp
  have hne : ∀ w, w ≠ u → s'.pc w = s.pc w := fun w hw => by rw [hpc]; exact at_ne _ _ hw
  have hm : ∀ x i v, s'.pc x = .made i v → s.pc x = .made i v := by
    intro x i v hx
    by_cases e : x = u
    · subst e; rw [hself] at hx; cases hx
    · rwa [hne x e] at hx
  refine ⟨?_, fun a b i j v ha hb => h.apart a b i j v (hm _ _ _ ha) (hm _ _ _ hb), fun a i v ha => h.small a i v (hm _ _ _ ha)⟩
  intro w
  by_cases e : w = u
  · subst e
    unfold Done; rw [hself, hlog]
    simp [hold, about]
  · have := h.done w
    unfold Done at this ⊢
    rw [hne w e, hlog, hlive, filter_other e (by simp [about])]; exact this

/-- The watch of `u` is opened. -/
theorem Low.opens {s s'} (h : Low s) {u i : Nat} {p : Int} (hpc : s'.pc = (s.at u (.made i p)).pc) (hlog : s'.log = s.log ++ [.opened u p])
    (hlive : s'.live = s.live ++ [p]) (hold : s.log.filter (about u) = []) (h0 : 0 < p) (h1 : p < 2147483648) (hp : p ∉ s.live) : Low s' := by
  have hself : s'.pc u = .made i p := by rw [hpc]; simp
  have hne : ∀ w, w ≠ u → s'.pc w = s.pc w := fun w hw => by rw [hpc]; exact at_ne _ _ hw
  have hin : ∀ w j v, s.pc w = .made j v → v ∈ s.live := by
    intro w j v hw
    have := h.done w
    unfold Done at this
    rw [hw] at this; exact this.2
  refine ⟨?_, ?_, ?_⟩
  · intro w
    by_cases e : w = u
    · subst e
      unfold Done; rw [hself, hlog, hlive]
      simp [hold, about]
    · have := h.done w
      unfold Done at this ⊢
      rw [hne w e, hlog, hlive, filter_other e (by simp [about])]
      split at this
      · exact ⟨this.1, List.mem_append_left _ this.2⟩
      · exact this
      · exact this
      · exact this
  · intro a b j k v ha hb
    by_cases ea : a = u <;> by_cases eb : b = u
    · rw [ea, eb]
    · subst ea; rw [hself] at ha; cases ha; rw [hne b eb] at hb; exact absurd (hin _ _ _ hb) hp
    · subst eb; rw [hself] at hb; cases hb; rw [hne a ea] at ha; exact absurd (hin _ _ _ ha) hp
    · rw [hne a ea] at ha; rw [hne b eb] at hb; exact h.apart a b j k v ha hb
  · intro a j v ha
    by_cases ea : a = u
    · subst ea; rw [hself] at ha; cases ha; exact ⟨h0, h1⟩
    · rw [hne a ea] at ha; exact h.small a j v ha

theorem low_step {s : St} (h : Low s) (a : Act) (ha : ∀ t ok p, a = .step t ok p → p < 2147483648) :
    ∃ o, step s a = .ok o ∧ ∀ s', o = some s' → Low s' := by
  have hold : ∀ u, (∀ c, s.pc u = c → Early c) → s.log.filter (about u) = [] := by
    intro u hc
    have := h.done u
    have he := hc _ rfl
    unfold Done at this
    split at this <;> rename_i hpc
    · rw [hpc] at he; cases he
    · rw [hpc] at he; cases he
    · rw [hpc] at he; cases he
    · exact this
  cases a with
  | make u =>
    by_cases hp : s.pc u = .none
    · refine ⟨_, by simp only [step]; rw [if_pos hp], ?_⟩
      intro s' hs; cases hs
      exact h.quiet rfl rfl rfl (hold u (fun c hc => by rw [hp] at hc; subst hc; trivial)) trivial
    · exact ⟨none, by simp only [step]; rw [if_neg hp], by intro s' hs; cases hs⟩
  | step u ok p =>
    have hp := ha u ok p rfl
    refine ⟨_, rfl, ?_⟩
    intro s' hs
    unfold cstep at hs
    split at hs <;> rename_i hpc
    all_goals try cases hs
    all_goals try have ho := hold u (fun c hc => by rw [hpc] at hc; subst hc; trivial)
    · exact h.quiet rfl rfl rfl ho (by split <;> trivial)
    · split at hs <;> cases hs
      · exact h.quiet rfl rfl rfl ho trivial
      · exact h.fails rfl rfl rfl ho
    · exact h.quiet rfl rfl rfl ho trivial
    · split at hs <;> cases hs
      exact h.quiet rfl rfl rfl ho (by split <;> trivial)
    · split at hs <;> cases hs
      exact h.quiet rfl rfl rfl ho trivial
    · split at hs <;> cases hs
      · exact h.quiet rfl rfl rfl ho trivial
      · exact h.fails rfl rfl rfl ho
    · split at hs
      · rename_i hq
        have hv : ∀ b : Bool, (if b then p else asInt p) = p := by
          intro b; cases b with
          | true => rfl
          | false => exact asInt_low hq.1 hp
        simp only [hv] at hs
        rw [if_neg (by omega)] at hs
        cases hs
        exact h.opens rfl rfl rfl ho hq.1 hp hq.2
      · cases hs
  | close u =>
    simp only [step]
    split
    · rename_i i v hpc
      obtain ⟨g1, g2⟩ := h.small u i v hpc
      have hv : ∀ b : Bool, (if b then v else asInt v) = v := by
        intro b; cases b with
        | true => rfl
        | false => exact asInt_low g1 g2
      have hd := h.done u
      unfold Done at hd
      rw [hpc] at hd
      simp only [hv]
      rw [if_pos (by simpa using hd.2)]
      refine ⟨_, rfl, ?_⟩
      intro s' hs; cases hs
      have hself : (({ s with live := s.live.erase v, log := s.log ++ [.close u v] } : St).at u .closed).pc u = .closed := by simp
      have hne : ∀ w, w ≠ u → (({ s with live := s.live.erase v, log := s.log ++ [.close u v] } : St).at u .closed).pc w = s.pc w :=
        fun w hw => at_ne _ _ hw
      have hm : ∀ x i' v', (({ s with live := s.live.erase v, log := s.log ++ [.close u v] } : St).at u .closed).pc x = .made i' v' →
          x ≠ u ∧ s.pc x = .made i' v' := by
        intro x i' v' hx
        by_cases e : x = u
        · subst e; rw [hself] at hx; cases hx
        · exact ⟨e, by rwa [hne x e] at hx⟩
      refine ⟨?_, fun a b i j v ha hb => h.apart a b i j v (hm _ _ _ ha).2 (hm _ _ _ hb).2, fun a i v ha => h.small a i v (hm _ _ _ ha).2⟩
      intro w
      by_cases e : w = u
      · subst e
        unfold Done; rw [hself]
        exact ⟨v, by simp [hd.1, about]⟩
      · have := h.done w
        unfold Done at this ⊢
        rw [hne w e]
        simp only [at_log, at_live]
        rw [filter_other e (by simp [about])]
        split at this
        · rename_i j v' hw
          refine ⟨this.1, (List.mem_erase_of_ne ?_).2 this.2⟩
          intro hv'; subst hv'; exact e (h.apart w u j i _ hw hpc)
        · exact this
        · exact this
        · exact this
    · exact ⟨_, rfl, by intro s' hs; cases hs; exact h⟩
    · exact ⟨_, rfl, by intro s' hs; cases hs⟩

theorem low_run : ∀ (acts : List Act) {s : St}, Low s → (∀ t ok p, Act.step t ok p ∈ acts → p < 2147483648) →
    ∃ o, run s acts = .ok o ∧ ∀ s', o = some s' → Low s' := by
  intro acts
  induction acts with
  | nil => intro s h _; exact ⟨_, rfl, by rintro s' ⟨⟩; exact h⟩
  | cons a as ih =>
    intro s h ha
    obtain ⟨o, ho, hi⟩ := low_step h a (fun t ok p e => ha t ok p (by simp [e]))
    simp only [run, ho, Outcome.bind_ok]
    cases o with
    | none => exact ⟨none, rfl, by intro s' hs; cases hs⟩
    | some s1 => exact ih (hi s1 rfl) (fun t ok p hm => ha t ok p (List.mem_cons_of_mem _ hm))

end Low138

open Low138

/-- C138, another part: if all watches of the C library lie at addresses below 2³¹ (as on a 32-bit system whose programs use
the lower half), then objects may be made and closed in any threads at any time, also while the library is being loaded. -/
theorem C138_low_addresses_partial (acts : List Act) (hl : ∀ t ok p, Act.step t ok p ∈ acts → p < 2147483648) :
    ∃ o, run {} acts = .ok o ∧ ∀ s, o = some s → Right s.log := by
  obtain ⟨o, ho, hi⟩ := low_run acts (s := {}) ⟨(fun u => rfl), (by intro u w i j v h; cases h), (by intro u i v h; cases h)⟩ hl
  exact ⟨o, ho, fun s hs => (hi s hs).right⟩

/-- The same history as `halfLoaded`, with another address. -/
def halfLoadedAt (p : Int) : List Act :=
  [.make 0, .step 0 true 0, .step 0 true 0, .step 0 true 0,
   .make 1, .step 1 true 0, .step 1 true 0, .step 1 true 0, .step 1 true p, .close 1]

/-- The first address above is wrong already. -/
theorem C138_bound_refuted : ¬ ∃ o, run {} (halfLoadedAt 2147483648) = .ok o := by
  intro ⟨o, h⟩
  have : (match run {} (halfLoadedAt 2147483648) with | .ok _ => true | .ub _ => false) = false := by decide +kernel
  rw [h] at this; cases this

/-- The last one below is right. -/
example : (∀ t ok p, Act.step t ok p ∈ halfLoadedAt 2147483647 → p < 2147483648) ∧
    (match run {} (halfLoadedAt 2147483647) with | .ok (some s) => some s.log | _ => none) =
      some [.opened 1 2147483647, .close 1 2147483647] := by
  refine ⟨?_, by decide +kernel⟩
  intro t ok p h
  simp only [halfLoadedAt, List.mem_cons, Act.step.injEq, reduceCtorEq, List.not_mem_nil, or_false, false_or] at h
  omega

end Verif.Props
