import Verif.Spec.Program
import Verif.Lemmas.Handle2
/-! The command line programs: invariants. -/
namespace Verif.Lemmas.Prog
open Verif Verif.Model Verif.Model.Life Verif.Model.Prog Verif.Spec Verif.Spec.Prog Verif.Lemmas.Life Verif.Lemmas.Handle

variable {fmt : Event → Str} {cfg : Cfg} {p p' : P}

theorem lines_append {es fs : List Ev} {ls ms : List Str} (h : Lines fmt es ls) (h2 : Lines fmt fs ms) : Lines fmt (es ++ fs) (ls ++ ms) := by
  induction h with
  | nil => exact h2
  | cons h _ ih => exact .cons h ih

theorem stamp_timed (now inner : Int) (e : Ev) : Timed e (e.stamp now inner) := by
  obtain ⟨p, ef, pt, a⟩ := e
  cases a with
  | none => exact ⟨now, rfl⟩
  | some h => exact ⟨now, inner, rfl⟩

theorem lines_map (now inner : Int) (es : List Ev) : Lines fmt es (es.map fun e => fmt (e.stamp now inner)) := by
  induction es with
  | nil => exact .nil
  | cons e es ih => exact .cons (stamp_timed now inner e) ih

/-- What the main thread's phase means. -/
def PhaseInv (p : P) : Prop :=
  match p.phase with
  | .waiting => p.life.o = .idle ∧ rets p.life.log = []
  | .closing => (∃ c, p.life.o = .closing c) ∧ rets p.life.log = []
  | .leaving c => InDtor p.life.o ∧ p.life.o ≠ .gone ∧ ∃ b, rets p.life.log = [b] ∧ c = if b then 0 else 1
  | .exited c => p.life.o = .gone ∧ ∃ b, rets p.life.log = [b] ∧ c = if b then 0 else 1

structure PInv (fmt : Event → Str) (cfg : Cfg) (p : P) : Prop where
  reach : Reachable cfg p.life
  lines : Lines fmt (callbacks p.life.log) p.out
  phase : PhaseInv p

theorem pinv_start (fmt : Event → Str) (cfg : Cfg) : PInv fmt cfg (start cfg) :=
  ⟨⟨[], rfl⟩, .nil, rfl, rfl⟩

theorem settle_out (cfg : Cfg) (p : P) : (settle cfg p).out = p.out ∧ callbacks (settle cfg p).life.log = callbacks p.life.log := by
  simp only [settle]
  split
  · split
    · rename_i hd; exact ⟨rfl, (owner_frame rfl hd).2.2⟩
    · exact ⟨rfl, rfl⟩
  · exact ⟨rfl, rfl⟩
  · exact ⟨rfl, rfl⟩

theorem settle_reach {cfg : Cfg} {p : P} (h : Reachable cfg p.life) : Reachable cfg (settle cfg p).life := by
  simp only [settle]
  split
  · split
    · rename_i hd; exact reachable_step h hd
    · exact h
  · exact h
  · exact h

theorem pinv_step {a : PAct} (hi : PInv fmt cfg p) (hs : pstep fmt cfg p a = some p') : PInv fmt cfg p' := by
  cases a with
  | go =>
    simp only [pstep] at hs
    split at hs
    · rename_i hph
      cases hl : step cfg p.life .oClose with
      | none => rw [hl] at hs; simp at hs
      | some l =>
        rw [hl] at hs; simp at hs; subst hs
        have hp := hi.phase
        simp only [PhaseInv, hph] at hp
        refine ⟨reachable_step hi.reach hl, ?_, ?_⟩
        · simp only [(owner_frame rfl hl).2.2]; exact hi.lines
        · simp only [step, hp.1] at hl
          injection hl with hl
          subst hl
          exact ⟨⟨_, rfl⟩, by simp [rets_append, rets, hp.2]⟩
    · cases hs
  | life a now inn =>
    simp only [pstep] at hs
    split at hs
    · cases hs
    · rename_i hne
      split at hs
      · rename_i hin
        simp only [Bool.and_eq_true] at hin
        cases hl : step cfg p.life a with
        | none => rw [hl] at hs; simp at hs
        | some l =>
          rw [hl] at hs; simp only [Option.map_some, Option.some.injEq] at hs
          have hlog := newCbs_eq (step_log hl)
          have hr := reachable_step hi.reach hl
          have hmv := inner_step hin.1 hl
          subst hs
          refine ⟨settle_reach hr, ?_, ?_⟩
          · rw [(settle_out _ _).1, (settle_out _ _).2]
            simp only
            rw [hlog]
            exact lines_append hi.lines (lines_map now inn _)
          · have hp := hi.phase
            simp only [PhaseInv] at hp
            cases hph : p.phase with
            | waiting =>
              rw [hph] at hp
              simp only at hp
              cases hmv with
              | same ho hlg => simp [settle, hph, PhaseInv, ho, hlg, hp.1, hp.2]
              | closing c c' ho _ _ => rw [hp.1] at ho; cases ho
              | returned c b ho _ _ => rw [hp.1] at ho; cases ho
              | dtor ho _ _ _ => rw [hp.1] at ho; exact absurd ho (by simp [InDtor])
            | closing =>
              rw [hph] at hp
              simp only at hp
              obtain ⟨⟨c0, hc0⟩, hrt⟩ := hp
              cases hmv with
              | same ho hlg => simp [settle, hph, PhaseInv, ho, hlg, hc0, hrt]
              | closing c c' ho ho' hlg => simp [settle, hph, PhaseInv, ho', hlg, hrt]
              | returned c b ho ho' hlg =>
                simp only [settle, hph, ho', hlg, List.getLast?_append, List.getLast?_singleton, Option.some_or, Option.some.injEq,
                  Obs.closeRet.injEq, step]
                refine ⟨trivial, by simp, b, ?_, ?_⟩
                · simp [rets_append, rets, hrt]
                · cases b <;> rfl
              | dtor ho _ _ _ => rw [hc0] at ho; exact absurd ho (by simp [InDtor])
            | leaving c =>
              rw [hph] at hp
              simp only at hp
              obtain ⟨hd, hg, b, hb, hc⟩ := hp
              have fin : InDtor l.o → rets l.log = [b] → PhaseInv (settle cfg { p with life := l, out := p.out ++ (Handle.newCbs p.life.log l.log).map fun e => fmt (e.stamp now inn) }) := by
                intro h1 h2
                by_cases hgo : l.o = .gone
                · simp only [settle, hph, hgo, PhaseInv]
                  exact ⟨trivial, b, h2, hc⟩
                · have : settle cfg { p with life := l, out := p.out ++ (Handle.newCbs p.life.log l.log).map fun e => fmt (e.stamp now inn) } =
                      { p with life := l, out := p.out ++ (Handle.newCbs p.life.log l.log).map fun e => fmt (e.stamp now inn) } := by
                    simp only [settle, hph]
                    split
                    · rename_i h3 _; cases h3
                    · rename_i h3; exact absurd h3 hgo
                    · rfl
                  rw [this]
                  simp only [PhaseInv, hph]
                  exact ⟨h1, hgo, b, h2, hc⟩
              rw [hph] at fin
              cases hmv with
              | same ho hlg => exact fin (by rw [ho]; exact hd) (by rw [hlg]; exact hb)
              | closing c c' ho _ _ => rw [ho] at hd; exact absurd hd (by simp [InDtor])
              | returned c b ho _ _ => rw [ho] at hd; exact absurd hd (by simp [InDtor])
              | dtor _ ho' _ hlg => exact fin ho' (by rw [hlg]; exact hb)
            | exited c => exact absurd hph (hne c)
      · cases hs

theorem pinv (h : Runs fmt cfg p) : PInv fmt cfg p := by
  obtain ⟨acts, h⟩ := h
  have key : ∀ (acts : List PAct) (p p' : P), PInv fmt cfg p → prun fmt cfg p acts = some p' → PInv fmt cfg p' := by
    intro acts
    induction acts with
    | nil => intro p p' hi hr; injection hr with hr; subst hr; exact hi
    | cons a as ih =>
      intro p p' hi hr
      simp only [prun] at hr
      cases hs : pstep fmt cfg p a with
      | none => rw [hs] at hr; cases hr
      | some q => rw [hs] at hr; exact ih q p' (pinv_step hi hs) hr
  exact key acts _ _ (pinv_start fmt cfg) h

end Verif.Lemmas.Prog
