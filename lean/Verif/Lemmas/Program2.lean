import Verif.Lemmas.Program
import Verif.Lemmas.Adapter
/-! The Rust program: invariants. -/
namespace Verif.Lemmas.Prog
open Verif Verif.Model Verif.Model.Life Verif.Model.Handle Verif.Model.Prog Verif.Spec Verif.Spec.Prog Verif.Spec.Hd Verif.Lemmas.Life Verif.Lemmas.Handle
open Verif.Lemmas.Ad (bind_ok_inv)

variable {cfg : Cfg}

theorem rlife_frame {r r1 : RS} {a : Life.Act} {now inner : Int} (hi : RInv cfg r) (hs : rstep Spec.Bind.utf8 cfg r (.life a now inner) = .ok (some r1))
    (hg : r.gone = false) (hr : r.h.rets = []) (hc : r.call ≠ some .close) :
    r1.polls = r.polls ∧ ((r1.gone = false ∧ r1.h.rets = [] ∧ r1.call = r.call) ∨ (r.call = some .drop ∧ r1.gone = true)) := by
  simp only [rstep] at hs
  split at hs
  · cases hs
  · cases hh : hstep cfg r.h (.life a) with
    | ub m => rw [hh] at hs; cases hs
    | ok o =>
      rw [hh] at hs
      cases o with
      | none => simp only [Outcome.bind_ok] at hs; cases hs
      | some h1 =>
        simp only [Outcome.bind_ok] at hs
        split at hs
        · cases hs
        · simp only [pure, Outcome.ok.injEq, Option.some.injEq] at hs
          subst hs
          obtain ⟨l1, l2⟩ := hlife_len hh
          simp only [back]
          cases hc1 : h1.inC with
          | true =>
            simp only [if_true]
            refine ⟨trivial, .inl ⟨hg, ?_, trivial⟩⟩
            cases hx : r.h.inC with
            | false => rw [(l1 hx).1] at hc1; cases hc1
            | true =>
              rcases l2 hx with ⟨_, k⟩ | ⟨k, _⟩
              · rw [k]; exact hr
              · rw [k] at hc1; cases hc1
          | false =>
            simp only [Bool.false_eq_true, if_false]
            cases hcall : r.call with
            | none =>
              have hx : r.h.inC = false := by
                cases hx : r.h.inC with
                | false => rfl
                | true => exact absurd hcall (hi.busy.1 hx)
              exact ⟨rfl, .inl ⟨hg, by simp only [(l1 hx).2]; exact hr, rfl⟩⟩
            | some c =>
              cases c with
              | close => exact absurd hcall hc
              | drop => exact ⟨rfl, .inr ⟨rfl, rfl⟩⟩

theorem rlife_gone {r r1 : RS} {a : Life.Act} {now inner : Int} (hs : rstep Spec.Bind.utf8 cfg r (.life a now inner) = .ok (some r1)) :
    r1.polls = r.polls ∧ (r.gone = true → r1.gone = true) := by
  simp only [rstep] at hs
  split at hs
  · cases hs
  · obtain ⟨o, _, hs⟩ := bind_ok_inv hs
    cases o with
    | none => cases hs
    | some h1 =>
      simp only at hs
      split at hs
      · cases hs
      · simp only [pure, Outcome.ok.injEq, Option.some.injEq] at hs
        subst hs
        simp only [back]
        split
        · exact ⟨rfl, id⟩
        · split
          · exact ⟨rfl, id⟩
          · exact ⟨rfl, id⟩
          · exact ⟨rfl, fun _ => rfl⟩

theorem rdrop_frame {r r1 : RS} (hs : rstep Spec.Bind.utf8 cfg r .drop = .ok (some r1)) :
    r1.polls = r.polls ∧ r1.gone = r.gone ∧ r1.h.rets = r.h.rets ∧ r1.call = some .drop := by
  simp only [rstep] at hs
  split at hs
  · cases hs
  · cases hh : hstep cfg r.h .close with
    | ub m => rw [hh] at hs; cases hs
    | ok o =>
      rw [hh] at hs
      cases o with
      | none => simp only [Outcome.bind_ok] at hs; cases hs
      | some h1 =>
        simp only [Outcome.bind_ok, pure, Outcome.ok.injEq, Option.some.injEq] at hs
        subst hs
        exact ⟨rfl, rfl, hclose_rets hh, rfl⟩

theorem rpoll_frame {r r1 : RS} (hs : rstep Spec.Bind.utf8 cfg r .poll = .ok (some r1)) :
    r1.gone = r.gone ∧ r1.h = r.h ∧ r1.call = r.call ∧
    ∃ x, r1.polls = r.polls ++ [x] := by
  simp only [rstep] at hs
  split at hs
  · simp at hs
  · split at hs <;> (simp at hs; subst hs; exact ⟨rfl, rfl, rfl, _, rfl⟩)

def RPhaseInv (p : RP) : Prop :=
  match p.phase with
  | .selecting => p.rs.call = none ∧ p.rs.gone = false ∧ p.rs.h.rets = []
  | .leaving => p.rs.call = some .drop ∧ p.rs.gone = false ∧ p.rs.h.rets = []
  | .returning => p.rs.gone = true

structure RPInv (cfg : Cfg) (p : RP) : Prop where
  rs : RInv cfg p.rs
  out : p.out = yielded p.rs.polls
  phase : RPhaseInv p

theorem rpinv_start (cfg : Cfg) : RPInv cfg (rstart cfg) := ⟨rinv_new cfg, rfl, rfl, rfl, rfl⟩

theorem rpinv_step {p p' : RP} {a : RPAct} (hi : RPInv cfg p) (hs : rpstep Spec.Bind.utf8 cfg p a = .ok (some p')) : RPInv cfg p' := by
  have hph := hi.phase
  cases a with
  | life a now inn =>
    simp only [rpstep] at hs
    obtain ⟨o, hr, hs⟩ := bind_ok_inv hs
    cases o with
    | none => cases hs
    | some rs =>
      simp only [pure, Outcome.ok.injEq, Option.some.injEq] at hs; subst hs
      have hi1 := rstep_inv hi.rs hr
      refine ⟨hi1, by simp only [(rlife_gone hr).1]; exact hi.out, ?_⟩
      by_cases hne : p.phase = .returning
      · simp only [RPhaseInv, hne] at hph
        simp only [(rlife_gone hr).2 hph, if_true, RPhaseInv]
      · have hh : p.rs.gone = false ∧ p.rs.h.rets = [] ∧ p.rs.call ≠ some .close := by
          simp only [RPhaseInv] at hph
          split at hph
          · exact ⟨hph.2.1, hph.2.2, by rw [hph.1]; simp⟩
          · exact ⟨hph.2.1, hph.2.2, by rw [hph.1]; simp⟩
          · rename_i h; exact absurd h hne
        rcases (rlife_frame hi.rs hr hh.1 hh.2.1 hh.2.2).2 with ⟨g1, g2, g3⟩ | ⟨_, g2⟩
        · simp only [g1, Bool.false_eq_true, if_false, RPhaseInv]
          simp only [RPhaseInv] at hph
          cases hpp : p.phase with
          | selecting => rw [hpp] at hph; simp only [g2, g3, hph.1]; trivial
          | leaving => rw [hpp] at hph; simp only [g2, g3, hph.1]; trivial
          | returning => exact absurd hpp hne
        · simp only [g2, if_true, RPhaseInv]
  | poll =>
    cases hpp : p.phase with
    | returning => simp [rpstep, hpp] at hs
    | leaving => simp [rpstep, hpp] at hs
    | selecting =>
      simp only [RPhaseInv, hpp] at hph
      simp only [rpstep, hpp] at hs
      obtain ⟨o, ho, hs⟩ := bind_ok_inv hs
      cases o with
      | none => cases hs
      | some rs =>
        have hi1 := rstep_inv hi.rs ho
        obtain ⟨g1, g2, g3, x, gx⟩ := rpoll_frame ho
        have hq : RPhaseInv { p with rs := rs } := by
          simp only [RPhaseInv, hpp, g1, g2, g3]; exact hph
        simp only [gx, List.getLast?_append, List.getLast?_singleton, Option.some_or] at hs
        cases x with
        | event e =>
          simp only [pure, Outcome.ok.injEq, Option.some.injEq] at hs; subst hs
          refine ⟨hi1, by simp only [gx, yielded_append, hi.out]; rfl, ?_⟩
          simp only [RPhaseInv, hpp] at hq ⊢; exact hq
        | pending =>
          simp only [pure, Outcome.ok.injEq, Option.some.injEq] at hs; subst hs
          refine ⟨hi1, by simp only [gx, yielded_append, hi.out]; simp [yielded], ?_⟩
          simp only [RPhaseInv, hpp] at hq ⊢; exact hq
        | ended => exact absurd (show Polled.ended ∈ rs.polls by rw [gx]; simp) hi1.never
  | ctrlC =>
    cases hpp : p.phase with
    | returning => simp [rpstep, hpp] at hs
    | leaving => simp [rpstep, hpp] at hs
    | selecting =>
      simp only [RPhaseInv, hpp] at hph
      simp only [rpstep, hpp] at hs
      obtain ⟨o, ho, hs⟩ := bind_ok_inv hs
      cases o with
      | none => cases hs
      | some rs =>
        simp only [pure, Outcome.ok.injEq, Option.some.injEq] at hs; subst hs
        obtain ⟨g1, g2, g3, g4⟩ := rdrop_frame ho
        exact ⟨rstep_inv hi.rs ho, by simp only [g1]; exact hi.out, g4, by simp only [g2]; exact hph.2.1, by simp only [g3]; exact hph.2.2⟩

/-- What a step does to the phase: only Ctrl-C leaves `select!`. -/
theorem rpinv_select {p p' : RP} {a : RPAct} (hi : RPInv cfg p) (hs : rpstep Spec.Bind.utf8 cfg p a = .ok (some p'))
    (hsel : p.phase = .selecting) (ha : a ≠ .ctrlC) : p'.phase = .selecting := by
  have hph := hi.phase
  simp only [RPhaseInv, hsel] at hph
  cases a with
  | ctrlC => exact absurd rfl ha
  | life a now inn =>
    simp only [rpstep] at hs
    obtain ⟨o, ho, hs⟩ := bind_ok_inv hs
    cases o with
    | none => cases hs
    | some rs =>
      simp only [pure, Outcome.ok.injEq, Option.some.injEq] at hs; subst hs
      rcases (rlife_frame hi.rs ho hph.2.1 hph.2.2 (by rw [hph.1]; simp)).2 with ⟨g1, _⟩ | ⟨g1, _⟩
      · simp [g1, hsel]
      · rw [hph.1] at g1; cases g1
  | poll =>
    simp only [rpstep, hsel] at hs
    obtain ⟨o, ho, hs⟩ := bind_ok_inv hs
    cases o with
    | none => cases hs
    | some rs =>
      have hi1 := rstep_inv hi.rs ho
      obtain ⟨_, _, _, x, gx⟩ := rpoll_frame ho
      simp only [gx, List.getLast?_append, List.getLast?_singleton, Option.some_or] at hs
      cases x with
      | event e => simp only [pure, Outcome.ok.injEq, Option.some.injEq] at hs; subst hs; rfl
      | pending => simp only [pure, Outcome.ok.injEq, Option.some.injEq] at hs; subst hs; rfl
      | ended => exact absurd (show Polled.ended ∈ rs.polls by rw [gx]; simp) hi1.never

theorem rprun_inv : ∀ (acts : List RPAct) (p p' : RP), RPInv cfg p → rprun Spec.Bind.utf8 cfg p acts = .ok (some p') →
    RPInv cfg p' ∧ (p.phase = .selecting → RPAct.ctrlC ∉ acts → p'.phase = .selecting) := by
  intro acts
  induction acts with
  | nil => intro p p' hi hr; simp only [rprun, Outcome.ok.injEq, Option.some.injEq] at hr; subst hr; exact ⟨hi, fun h _ => h⟩
  | cons a as ih =>
    intro p p' hi hr
    simp only [rprun] at hr
    obtain ⟨o, ho, hr⟩ := bind_ok_inv hr
    cases o with
    | none => cases hr
    | some q =>
      obtain ⟨h1, h2⟩ := ih q p' (rpinv_step hi ho) hr
      refine ⟨h1, fun hsel hn => ?_⟩
      simp only [List.mem_cons, not_or] at hn
      exact h2 (rpinv_select hi ho hsel (fun h => hn.1 h.symm)) hn.2

theorem rpinv {p : RP} (h : RRuns Spec.Bind.utf8 cfg p) : RPInv cfg p := by
  obtain ⟨acts, h⟩ := h
  exact (rprun_inv acts _ _ (rpinv_start cfg) h).1

private theorem freed_rets {h : H} (hi : HInv cfg h) (hC : h.inC = false) (hr : h.rets = []) : h.freed = false := by
  rcases hi.out hC with ⟨h1, _⟩ | ⟨_, _, _, l, h4, _⟩
  · exact h1
  · rw [hr] at h4; simp at h4

/-- The program is safe with a working stop signal. -/
theorem rpstep_ok (hfd : cfg.fdOk = true) {p : RP} (hi : RPInv cfg p) (a : RPAct) (m : String) : rpstep Spec.Bind.utf8 cfg p a ≠ .ub m := by
  have hph := hi.phase
  have inC : p.rs.call = none → p.rs.h.inC = false := fun hc => by
    cases hx : p.rs.h.inC with
    | false => rfl
    | true => exact absurd hc (hi.rs.busy.1 hx)
  have safe : ∀ (b : Handle.RAct) (m : String), (b = .drop → p.phase = .selecting) → b ≠ .close → rstep Spec.Bind.utf8 cfg p.rs b ≠ .ub m := by
    intro b m hd hcl hub
    rcases rstep_ub hi.rs hub with ⟨h1, h2, h3, h4⟩ | ⟨h1, h2⟩
    · rcases h1 with rfl | rfl
      · exact hcl rfl
      · simp only [RPhaseInv, hd rfl] at hph
        rw [freed_rets hi.rs.h (inC h2) hph.2.2] at h4; cases h4
    · exact h2 (ended_of_rets hfd hi.rs.h (inC (hi.rs.gone h1).1) (hi.rs.gone h1).2)
  intro hub
  cases a with
  | life a now inn =>
    simp only [rpstep] at hub
    cases ho : rstep Spec.Bind.utf8 cfg p.rs (.life a now inn) with
    | ub m' => exact safe _ m' (by simp) (by simp) ho
    | ok o => rw [ho] at hub; simp only [Outcome.bind_ok] at hub; split at hub <;> cases hub
  | poll =>
    cases hpp : p.phase with
    | returning => simp [rpstep, hpp] at hub
    | leaving => simp [rpstep, hpp] at hub
    | selecting =>
      simp only [rpstep, hpp] at hub
      cases ho : rstep Spec.Bind.utf8 cfg p.rs .poll with
      | ub m' => exact safe _ m' (by simp) (by simp) ho
      | ok o =>
        rw [ho] at hub
        cases o with
        | none => simp only [Outcome.bind_ok] at hub; cases hub
        | some rs =>
          have hi1 := rstep_inv hi.rs ho
          obtain ⟨_, _, _, x, gx⟩ := rpoll_frame ho
          simp only [Outcome.bind_ok, gx, List.getLast?_append, List.getLast?_singleton, Option.some_or] at hub
          cases x with
          | event e => cases hub
          | pending => cases hub
          | ended => exact absurd (show Polled.ended ∈ rs.polls by rw [gx]; simp) hi1.never
  | ctrlC =>
    cases hpp : p.phase with
    | returning => simp [rpstep, hpp] at hub
    | leaving => simp [rpstep, hpp] at hub
    | selecting =>
      simp only [rpstep, hpp] at hub
      cases ho : rstep Spec.Bind.utf8 cfg p.rs .drop with
      | ub m' => exact safe _ m' (fun _ => hpp) (by simp) ho
      | ok o => rw [ho] at hub; simp only [Outcome.bind_ok] at hub; split at hub <;> cases hub

end Verif.Lemmas.Prog
