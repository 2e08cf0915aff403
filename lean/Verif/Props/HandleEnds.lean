import Verif.Spec.HandleEnds
import Verif.Lemmas.NodeLife2
import Verif.Props.Handle
/-!
# Closing through C, Rust and Python ends: C134
-/

namespace Verif.Props
open Verif Verif.Model Verif.Model.Life Verif.Model.Handle Verif.Spec Verif.Spec.Hd Verif.Lemmas.Life Verif.Lemmas.Handle Verif.Lemmas.NodeLife

private theorem hinv' {cfg : Cfg} {h : H} (hr : HReach cfg h) : HInv cfg h := by
  obtain ⟨acts, hr⟩ := hr
  exact hrun_inv acts _ _ (hinv_open cfg) hr

private theorem rinv' {cfg : Cfg} {r : RS} (hr : RReach Spec.Bind.utf8 cfg r) : RInv cfg r := by
  obtain ⟨acts, hr⟩ := hr
  exact rrun_inv acts _ _ (rinv_new cfg) hr

private theorem pinv' {cfg : Cfg} {p : PS} (hr : PReach cfg p) : PInv cfg p := by
  obtain ⟨acts, hr⟩ := hr
  exact prun_inv acts _ _ (pinv_new cfg) hr

/-- Both threads together. -/
private def left (h : H) : Nat := cost h.life.w + oCost h.life.o

/-! ## C -/

/-- C134 (C): when files are not changed any more, only so many steps can be made inside the library, by both threads together:
a number known in advance, plus two for each warning while opening. -/
theorem C134_c_bounded (cfg : Cfg) (h : H) (hr : HReach cfg h) :
    ∃ bound, ∀ acts h', (∀ a ∈ acts, QuietH a) → hrun cfg h acts = .ok (some h') → acts.length ≤ bound + (acts.map costH).sum := by
  have gen : ∀ (acts : List HAct) (h h' : H), HInv cfg h → (∀ a ∈ acts, QuietH a) → hrun cfg h acts = .ok (some h') →
      acts.length ≤ left h + (acts.map costH).sum := by
    intro acts
    induction acts with
    | nil => intro h h' _ _ _; simp
    | cons a as ih =>
      intro h h' hi hq hr
      simp only [hrun] at hr
      cases hs : hstep cfg h a with
      | ub m => rw [hs] at hr; cases hr
      | ok o =>
        rw [hs] at hr
        cases o with
        | none => simp only [Outcome.bind_ok] at hr; cases hr
        | some h1 =>
          simp only [Outcome.bind_ok] at hr
          have h2 := ih h1 h' (hstep_inv hi hs) (fun b hb => hq b (List.mem_cons_of_mem _ hb)) hr
          have hqa := hq a List.mem_cons_self
          cases a with
          | close => exact hqa.elim
          | life a =>
            have := quiet_hstep hi hqa hs
            simp only [List.length_cons, List.map_cons, List.sum_cons, costH, left] at h2 ⊢
            omega
  exact ⟨left h, fun acts h' hq hx => gen acts h h' (hinv' hr) hq hx⟩

/-- C134 (C): and a call of `wtr_watcher_close` is never stuck, even without a working stop signal, unless the callback called
`wtr_watcher_close` itself. -/
theorem C134_c_never_stuck (cfg : Cfg) (h : H) (hr : HReach cfg h) (hC : h.inC = true) (hn : NotInside h) :
    ∃ a h', QuietH a ∧ costH a = 0 ∧ hstep cfg h a = .ok (some h') := by
  obtain ⟨a, h', h1, _, h3, h4⟩ := hclose_progress (hinv' hr) hC hn
  exact ⟨.life a, h', h1, h3, h4⟩

private theorem quiet_not_self {a : Act} (h : Quiet a) : a ≠ .cbClose := fun e => by rw [e] at h; exact h

/-- C134 (C): so there is a way to the end of the call, and there it has answered. -/
theorem C134_c_returns (cfg : Cfg) (h : H) (hr : HReach cfg h) (hC : h.inC = true) (hn : NotInside h) :
    ∃ acts h', (∀ a ∈ acts, QuietH a) ∧ hrun cfg h acts = .ok (some h') ∧ h'.inC = false ∧ h'.rets.length = h.rets.length + 1 := by
  have gen : ∀ (k : Nat) (h : H), left h ≤ k → HInv cfg h → h.inC = true → NotInside h →
      ∃ acts h', (∀ a ∈ acts, QuietH a) ∧ hrun cfg h acts = .ok (some h') ∧ h'.inC = false ∧ h'.rets.length = h.rets.length + 1 := by
    intro k
    induction k with
    | zero =>
      intro h hk hi hC hn
      obtain ⟨a, h1, g1, _, g3, g4⟩ := hclose_progress hi hC hn
      have := quiet_hstep hi g1 g4
      unfold left at hk; omega
    | succ k ih =>
      intro h hk hi hC hn
      obtain ⟨a, h1, g1, _, g3, g4⟩ := hclose_progress hi hC hn
      have hq := quiet_hstep hi g1 g4
      have hi1 := hstep_inv hi g4
      have hn1 := plain_hstep hi (by intro e; exact quiet_not_self g1 (by cases e; rfl)) hn g4
      rcases (hlife_len g4).2 hC with ⟨c1, c2⟩ | ⟨c1, c2⟩
      · obtain ⟨acts, h', k1, k2, k3, k4⟩ := ih h1 (by unfold left at hk ⊢; omega) hi1 c1 hn1
        refine ⟨.life a :: acts, h', ?_, by simp [hrun, g4, k2], k3, by rw [k4, c2]⟩
        intro b hb
        rcases List.mem_cons.1 hb with rfl | hb
        · exact g1
        · exact k1 b hb
      · exact ⟨[.life a], h1, by intro b hb; simp at hb; subst hb; exact g1, by simp [hrun, g4], c1, c2⟩
  exact gen _ h (Nat.le_refl _) (hinv' hr) hC hn

/-! ## Rust -/

private theorem rlife {cfg : Cfg} {r r' : RS} {a : Act} {n i : Int} (hs : rstep Spec.Bind.utf8 cfg r (.life a n i) = .ok (some r')) :
    hstep cfg r.h (.life a) = .ok (some r'.h) := by
  simp only [rstep] at hs
  split at hs
  · cases hs
  · cases hh : hstep cfg r.h (.life a) with
    | ub m => rw [hh] at hs; cases hs
    | ok o =>
      rw [hh] at hs
      cases o with
      | none => simp only [Outcome.bind_ok] at hs; cases hs
      | some h1 =>
        simp only [Outcome.bind_ok] at hs
        split at hs
        · cases hs
        · simp only [pure, Outcome.ok.injEq, Option.some.injEq] at hs
          subst hs
          simp only [back]
          split
          · rfl
          · split <;> rfl

/-- C134 (Rust): as for C, the number of steps inside the library is bounded while `close` or `drop` run. -/
theorem C134_rust_bounded (cfg : Cfg) (r : RS) (hr : RReach Spec.Bind.utf8 cfg r) :
    ∃ bound, ∀ acts r', (∀ a ∈ acts, QuietR a) → rrun Spec.Bind.utf8 cfg r acts = .ok (some r') → acts.length ≤ bound + (acts.map costR).sum := by
  have gen : ∀ (acts : List RAct) (r r' : RS), RInv cfg r → (∀ a ∈ acts, QuietR a) → rrun Spec.Bind.utf8 cfg r acts = .ok (some r') →
      acts.length ≤ left r.h + (acts.map costR).sum := by
    intro acts
    induction acts with
    | nil => intro h h' _ _ _; simp
    | cons a as ih =>
      intro r r' hi hq hr
      simp only [rrun] at hr
      cases hs : rstep Spec.Bind.utf8 cfg r a with
      | ub m => rw [hs] at hr; cases hr
      | ok o =>
        rw [hs] at hr
        cases o with
        | none => simp only [Outcome.bind_ok] at hr; cases hr
        | some r1 =>
          simp only [Outcome.bind_ok] at hr
          have h2 := ih r1 r' (rstep_inv hi hs) (fun b hb => hq b (List.mem_cons_of_mem _ hb)) hr
          have hqa := hq a List.mem_cons_self
          cases a with
          | close => exact hqa.elim
          | drop => exact hqa.elim
          | poll => exact hqa.elim
          | life a n i =>
            have := quiet_hstep hi.h hqa (rlife hs)
            simp only [List.length_cons, List.map_cons, List.sum_cons, costR, left] at h2 ⊢
            omega
  exact ⟨left r.h, fun acts h' hq hx => gen acts r h' (rinv' hr) hq hx⟩

private theorem rs_plain {cfg : Cfg} : ∀ (acts : List RAct) (r r' : RS), RInv cfg r → NotInside r.h → rrun Spec.Bind.utf8 cfg r acts = .ok (some r') → NotInside r'.h := by
  intro acts
  induction acts with
  | nil => intro r r' _ hn h; simp only [rrun, Outcome.ok.injEq, Option.some.injEq] at h; subst h; exact hn
  | cons a as ih =>
    intro r r' hi hn h
    simp only [rrun] at h
    cases hs : rstep Spec.Bind.utf8 cfg r a with
    | ub m => rw [hs] at h; cases h
    | ok o =>
      rw [hs] at h
      cases o with
      | none => simp only [Outcome.bind_ok] at h; cases h
      | some r1 =>
        simp only [Outcome.bind_ok] at h
        refine ih r1 r' (rstep_inv hi hs) ?_ h
        have call : ∀ h1, hstep cfg r.h .close = .ok (some h1) → NotInside h1 := fun h1 hh => plain_hstep hi.h (by simp) hn hh
        cases a with
        | life a n i =>
          refine plain_hstep hi.h ?_ hn (rlife hs)
          intro e
          cases e
          simp [rstep, pure] at hs
        | poll =>
          simp only [rstep] at hs
          split at hs
          · cases hs
          · split at hs <;> (simp only [Outcome.ok.injEq, Option.some.injEq] at hs; subst hs; exact hn)
        | close =>
          simp only [rstep] at hs
          split at hs
          · cases hs
          · cases hh : hstep cfg r.h .close with
            | ub m => rw [hh] at hs; cases hs
            | ok o =>
              rw [hh] at hs
              cases o with
              | none => simp only [Outcome.bind_ok] at hs; cases hs
              | some h1 => simp only [Outcome.bind_ok, pure, Outcome.ok.injEq, Option.some.injEq] at hs; subst hs; exact call h1 hh
        | drop =>
          simp only [rstep] at hs
          split at hs
          · cases hs
          · cases hh : hstep cfg r.h .close with
            | ub m => rw [hh] at hs; cases hs
            | ok o =>
              rw [hh] at hs
              cases o with
              | none => simp only [Outcome.bind_ok] at hs; cases hs
              | some h1 => simp only [Outcome.bind_ok, pure, Outcome.ok.injEq, Option.some.injEq] at hs; subst hs; exact call h1 hh

private theorem rnot {cfg : Cfg} {r : RS} (hr : RReach Spec.Bind.utf8 cfg r) : NotInside r.h := by
  obtain ⟨acts, hr⟩ := hr
  refine rs_plain acts _ _ (rinv_new cfg) ?_ hr
  intro c n h
  simp [rnew, hopen, Life.init] at h

private theorem rstuck {cfg : Cfg} {r : RS} (hi : RInv cfg r) (hn : NotInside r.h) (hc : r.call ≠ none) (now inner : Int) :
    ∃ a r', Quiet a ∧ openCost a = 0 ∧ rstep Spec.Bind.utf8 cfg r (.life a now inner) = .ok (some r') := by
  obtain ⟨a, h', h1, _, h3, h4⟩ := hclose_progress hi.h (hi.busy.2 hc) hn
  have hg : r.gone = false := by
    cases hx : r.gone with
    | false => rfl
    | true => exact absurd (hi.gone hx).1 hc
  refine ⟨a, back { r with h := h', chan := r.chan ++ (newCbs r.h.life.log h'.life.log).map (rsOf Spec.Bind.utf8 now inner) }, h1, h3, ?_⟩
  simp only [rstep, if_neg (quiet_not_self h1), h4, Outcome.bind_ok, hg, Bool.and_false, Bool.false_eq_true, if_false]
  rfl

/-- C134 (Rust): `close` and `drop` are never stuck, with or without a working stop signal. (The callback is the library's own
and does not call `close`.) -/
theorem C134_rust_never_stuck (cfg : Cfg) (r : RS) (hr : RReach Spec.Bind.utf8 cfg r) (hc : r.call ≠ none) (now inner : Int) :
    ∃ a r', QuietR (.life a now inner) ∧ costR (.life a now inner) = 0 ∧ rstep Spec.Bind.utf8 cfg r (.life a now inner) = .ok (some r') :=
  rstuck (rinv' hr) (rnot hr) hc now inner

/-- What a step inside the library does to the running call. -/
private theorem rcall {cfg : Cfg} {r r' : RS} {a : Act} {n i : Int} (hs : rstep Spec.Bind.utf8 cfg r (.life a n i) = .ok (some r')) :
    (r'.h.inC = true → r'.call = r.call) ∧ (r'.h.inC = false → r'.call = none ∧ (r.call = some .drop → r'.gone = true)) := by
  simp only [rstep] at hs
  split at hs
  · cases hs
  · cases hh : hstep cfg r.h (.life a) with
    | ub m => rw [hh] at hs; cases hs
    | ok o =>
      rw [hh] at hs
      cases o with
      | none => simp only [Outcome.bind_ok] at hs; cases hs
      | some h1 =>
        simp only [Outcome.bind_ok] at hs
        split at hs
        · cases hs
        · simp only [pure, Outcome.ok.injEq, Option.some.injEq] at hs
          subst hs
          simp only [back]
          by_cases hx : h1.inC = true
          · simp [hx]
          · simp only [if_neg hx]
            cases hcc : r.call with
            | none => simp [hcc, hx]
            | some c => cases c <;> simp [hx]

/-- C134 (Rust): so `close` and `drop` can return, and then the C function has answered; a dropped `Watch` is gone. -/
theorem C134_rust_returns (cfg : Cfg) (r : RS) (hr : RReach Spec.Bind.utf8 cfg r) (hc : r.call ≠ none) :
    ∃ acts r', (∀ a ∈ acts, QuietR a) ∧ rrun Spec.Bind.utf8 cfg r acts = .ok (some r') ∧ r'.call = none ∧
      r'.h.rets.length = r.h.rets.length + 1 ∧ (r.call = some .drop → r'.gone = true) := by
  have gen : ∀ (k : Nat) (r : RS), left r.h ≤ k → RInv cfg r → NotInside r.h → r.call ≠ none →
      ∃ acts r', (∀ a ∈ acts, QuietR a) ∧ rrun Spec.Bind.utf8 cfg r acts = .ok (some r') ∧ r'.call = none ∧
      r'.h.rets.length = r.h.rets.length + 1 ∧ (r.call = some .drop → r'.gone = true) := by
    intro k
    induction k with
    | zero =>
      intro r hk hi hn hc
      obtain ⟨a, r1, g1, g3, g4⟩ := rstuck hi hn hc 0 0
      have := quiet_hstep hi.h g1 (rlife g4)
      unfold left at hk; omega
    | succ k ih =>
      intro r hk hi hn hc
      obtain ⟨a, r1, g1, g3, g4⟩ := rstuck hi hn hc 0 0
      have hh := rlife g4
      have hq := quiet_hstep hi.h g1 hh
      have hi1 := rstep_inv hi g4
      have hn1 := plain_hstep hi.h (by intro e; exact quiet_not_self g1 (by cases e; rfl)) hn hh
      have hcl := rcall g4
      rcases (hlife_len hh).2 (hi.busy.2 hc) with ⟨c1, c2⟩ | ⟨c1, c2⟩
      · obtain ⟨acts, r', k1, k2, k3, k4, k5⟩ := ih r1 (by unfold left at hk ⊢; omega) hi1 hn1 (hi1.busy.1 c1)
        refine ⟨.life a 0 0 :: acts, r', ?_, by simp [rrun, g4, k2], k3, by rw [k4, c2], by rw [← hcl.1 c1]; exact k5⟩
        intro b hb
        rcases List.mem_cons.1 hb with rfl | hb
        · exact g1
        · exact k1 b hb
      · exact ⟨[.life a 0 0], r1, by intro b hb; simp at hb; subst hb; exact g1, by simp [rrun, g4], (hcl.2 c1).1, c2, (hcl.2 c1).2⟩
  exact gen _ r (Nat.le_refl _) (rinv' hr) (rnot hr) hc

/-! ## Python -/

private theorem plife {cfg : Cfg} {p p' : PS} {a : Act} {n i : Int} (hs : pstep Spec.Bind.utf8 cfg p (.life a n i) = .ok (some p')) :
    hstep cfg p.h (.life a) = .ok (some p'.h) ∧ (p'.h.inC = true → p'.busy = p.busy ∧ p'.last = p.last) ∧
    (p'.h.inC = false → p.busy = true → p'.busy = false ∧ p'.attr = false ∧ p'.alive = !p.last) := by
  simp only [pstep] at hs
  cases hh : hstep cfg p.h (.life a) with
  | ub m => rw [hh] at hs; cases hs
  | ok o =>
    rw [hh] at hs
    cases o with
    | none => simp only [Outcome.bind_ok] at hs; cases hs
    | some h1 =>
      simp only [Outcome.bind_ok] at hs
      split at hs
      · cases hs
      · simp only [pure, Outcome.ok.injEq, Option.some.injEq] at hs
        subst hs
        simp only [pback]
        by_cases hx : h1.inC = true
        · simp [hx]
        · simp only [if_neg hx]
          by_cases hb : p.busy = true
          · simp [hb, hx]
          · simp [hb, hx]

/-- C134 (Python): the number of steps inside the library is bounded likewise. -/
theorem C134_python_bounded (cfg : Cfg) (p : PS) (hr : PReach cfg p) :
    ∃ bound, ∀ acts p', (∀ a ∈ acts, QuietP a) → prun Spec.Bind.utf8 cfg p acts = .ok (some p') → acts.length ≤ bound + (acts.map costP).sum := by
  have gen : ∀ (acts : List PAct) (p p' : PS), PInv cfg p → (∀ a ∈ acts, QuietP a) → prun Spec.Bind.utf8 cfg p acts = .ok (some p') →
      acts.length ≤ left p.h + (acts.map costP).sum := by
    intro acts
    induction acts with
    | nil => intro h h' _ _ _; simp
    | cons a as ih =>
      intro r r' hi hq hr
      simp only [prun] at hr
      cases hs : pstep Spec.Bind.utf8 cfg r a with
      | ub m => rw [hs] at hr; cases hr
      | ok o =>
        rw [hs] at hr
        cases o with
        | none => simp only [Outcome.bind_ok] at hr; cases hr
        | some r1 =>
          simp only [Outcome.bind_ok] at hr
          have h2 := ih r1 r' (pstep_inv hi hs) (fun b hb => hq b (List.mem_cons_of_mem _ hb)) hr
          have hqa := hq a List.mem_cons_self
          cases a with
          | close => exact hqa.elim
          | del => exact hqa.elim
          | life a n i =>
            have := quiet_hstep hi.h hqa (plife hs).1
            simp only [List.length_cons, List.map_cons, List.sum_cons, costP, left] at h2 ⊢
            omega
  exact ⟨left p.h, fun acts h' hq hx => gen acts p h' (pinv' hr) hq hx⟩

private theorem pstuck {cfg : Cfg} {p : PS} (hi : PInv cfg p) (hn : NotInside p.h) (hb : p.busy = true) (now inner : Int) :
    ∃ a p', Quiet a ∧ openCost a = 0 ∧ pstep Spec.Bind.utf8 cfg p (.life a now inner) = .ok (some p') := by
  have hC := hi.busy.2 hb
  obtain ⟨a, h', h1, _, h3, h4⟩ := hclose_progress hi.h hC hn
  have hal : p.alive = true := by
    cases hx : p.alive with
    | true => rfl
    | false => rw [(hi.dead hx).1] at hC; cases hC
  refine ⟨a, pback { p with h := h', told := p.told ++ (newCbs p.h.life.log h'.life.log).filterMap (pyOf Spec.Bind.utf8 now inner) }, h1, h3, ?_⟩
  simp only [pstep, h4, Outcome.bind_ok, hal, Bool.not_true, Bool.and_false, Bool.false_eq_true, if_false]
  rfl

/-- C134 (Python): `close`, the end of a `with` block and the deletion of the object are never stuck, unless the callback
called `close` itself. -/
theorem C134_python_never_stuck (cfg : Cfg) (p : PS) (hr : PReach cfg p) (hb : p.busy = true) (hn : NotInside p.h) (now inner : Int) :
    ∃ a p', QuietP (.life a now inner) ∧ costP (.life a now inner) = 0 ∧ pstep Spec.Bind.utf8 cfg p (.life a now inner) = .ok (some p') :=
  pstuck (pinv' hr) hn hb now inner

/-- C134 (Python): so they can return, and then the object has let go of its handle, and is gone if it was being deleted. -/
theorem C134_python_returns (cfg : Cfg) (p : PS) (hr : PReach cfg p) (hb : p.busy = true) (hn : NotInside p.h) :
    ∃ acts p', (∀ a ∈ acts, QuietP a) ∧ prun Spec.Bind.utf8 cfg p acts = .ok (some p') ∧ p'.busy = false ∧ p'.attr = false ∧ p'.alive = !p.last := by
  have gen : ∀ (k : Nat) (p : PS), left p.h ≤ k → PInv cfg p → NotInside p.h → p.busy = true →
      ∃ acts p', (∀ a ∈ acts, QuietP a) ∧ prun Spec.Bind.utf8 cfg p acts = .ok (some p') ∧ p'.busy = false ∧ p'.attr = false ∧ p'.alive = !p.last := by
    intro k
    induction k with
    | zero =>
      intro r hk hi hn hc
      obtain ⟨a, r1, g1, g3, g4⟩ := pstuck hi hn hc 0 0
      have := quiet_hstep hi.h g1 (plife g4).1
      unfold left at hk; omega
    | succ k ih =>
      intro r hk hi hn hc
      obtain ⟨a, r1, g1, g3, g4⟩ := pstuck hi hn hc 0 0
      obtain ⟨hh, hx, hy⟩ := plife g4
      have hq := quiet_hstep hi.h g1 hh
      have hi1 := pstep_inv hi g4
      have hn1 := plain_hstep hi.h (by intro e; exact quiet_not_self g1 (by cases e; rfl)) hn hh
      rcases (hlife_len hh).2 (hi.busy.2 hc) with ⟨c1, c2⟩ | ⟨c1, c2⟩
      · obtain ⟨acts, r', k1, k2, k3, k4, k5⟩ := ih r1 (by unfold left at hk ⊢; omega) hi1 hn1 (hi1.busy.1 c1)
        refine ⟨.life a 0 0 :: acts, r', ?_, by simp [prun, g4, k2], k3, k4, by rw [k5, (hx c1).2]⟩
        intro b hb
        rcases List.mem_cons.1 hb with rfl | hb
        · exact g1
        · exact k1 b hb
      · exact ⟨[.life a 0 0], r1, by intro b hb; simp at hb; subst hb; exact g1, by simp [prun, g4], hy c1 hc⟩
  exact gen _ p (Nat.le_refl _) (pinv' hr) hn hb

/-! ## Closing inside the callback -/

/-- A step of a handle is one or more steps of its watch. -/
private theorem hstep_run {cfg : Cfg} {h h' : H} {a : HAct} (hs : hstep cfg h a = .ok (some h')) : ∃ acts, run cfg h.life acts = some h'.life := by
  cases a with
  | life a =>
    simp only [hstep] at hs
    split at hs
    · cases hl : step cfg h.life a with
      | none => rw [hl] at hs; simp at hs
      | some l =>
        rw [hl] at hs; simp at hs; subst hs
        have one : ∃ acts, run cfg h.life acts = some l := ⟨[a], by simp [run, hl]⟩
        simp only [settle]
        split
        · exact one
        · split
          · split
            · split
              · rename_i l' hd
                exact ⟨[a, .oDtor], by simp [run, hl, hd]⟩
              · exact one
            · exact one
          · exact one
          · exact one
    · simp at hs
  | close =>
    simp only [hstep] at hs
    split at hs
    · simp at hs
    · split at hs
      · cases hs
      · cases hl : step cfg h.life .oClose with
        | none => rw [hl] at hs; simp at hs
        | some l => rw [hl] at hs; simp at hs; subst hs; exact ⟨[.oClose], by simp [run, hl]⟩

private theorem self_hstep {cfg : Cfg} (hfd : cfg.fdOk = true) {h h' : H} (hi : HInv cfg h) {a : HAct} {c : ClosePc} {n : WPc}
    (hw : h.life.w = .selfClose c n) (hs : hstep cfg h a = .ok (some h')) :
    (∃ c', h'.life.w = .selfClose c' n) ∧ callbacks h'.life.log = callbacks h.life.log ∧ (h.inC = true → h'.inC = true) ∧ h'.rets = h.rets := by
  obtain ⟨acts, hr⟩ := hstep_run hs
  obtain ⟨⟨c', k1⟩, k2, _, _⟩ := C16_close_in_callback_hangs cfg hfd h.life h'.life acts c n hi.reach hw hr
  have hi' := hstep_inv hi hs
  have none' : h'.inC = false → h'.rets = [] := by
    intro hC
    cases hx : h'.rets with
    | nil => rfl
    | cons b bs =>
      have := ended_of_rets hfd hi' hC (by rw [hx]; simp)
      rw [k1] at this; cases this
  refine ⟨⟨c', k1⟩, k2, ?_, ?_⟩
  · intro hC
    cases a with
    | life a =>
      rcases (hlife_len hs).2 hC with ⟨g1, _⟩ | ⟨g1, g2⟩
      · exact g1
      · rw [none' g1] at g2; cases g2
    | close => simp [hstep, hC] at hs
  · cases a with
    | life a =>
      cases hC : h.inC with
      | false => exact ((hlife_len hs).1 hC).2
      | true =>
        rcases (hlife_len hs).2 hC with ⟨_, g2⟩ | ⟨g1, g2⟩
        · exact g2
        · rw [none' g1] at g2; cases g2
    | close => exact hclose_rets hs

/-- C134: if a C callback calls `wtr_watcher_close` on its own watch (working stop signal), then in every continuation that
call has not returned, no other call that was running returns, and the callback is not called again. -/
theorem C134_c_hangs_in_callback (cfg : Cfg) (hfd : cfg.fdOk = true) (h : H) (hr : HReach cfg h) (hs : ¬ NotInside h) :
    ∀ acts h', hrun cfg h acts = .ok (some h') →
      ¬ NotInside h' ∧ callbacks h'.life.log = callbacks h.life.log ∧ (h.inC = true → h'.inC = true) ∧ h'.rets = h.rets := by
  intro acts
  have gen : ∀ (acts : List HAct) (h h' : H), HInv cfg h → ¬ NotInside h → hrun cfg h acts = .ok (some h') →
      ¬ NotInside h' ∧ callbacks h'.life.log = callbacks h.life.log ∧ (h.inC = true → h'.inC = true) ∧ h'.rets = h.rets := by
    intro acts
    induction acts with
    | nil => intro h h' _ hs hx; simp only [hrun, Outcome.ok.injEq, Option.some.injEq] at hx; subst hx; exact ⟨hs, rfl, id, rfl⟩
    | cons a as ih =>
      intro h h' hi hn hx
      simp only [hrun] at hx
      cases hst : hstep cfg h a with
      | ub m => rw [hst] at hx; cases hx
      | ok o =>
        rw [hst] at hx
        cases o with
        | none => simp only [Outcome.bind_ok] at hx; cases hx
        | some h1 =>
          simp only [Outcome.bind_ok] at hx
          have hw : ∃ c n, h.life.w = .selfClose c n := by
            cases hw : h.life.w with
            | selfClose c n => exact ⟨c, n, rfl⟩
            | _ => exact absurd (fun c n hc => by rw [hw] at hc; cases hc) hn
          obtain ⟨c, n, hw⟩ := hw
          obtain ⟨⟨c', k1⟩, k2, k3, k4⟩ := self_hstep hfd hi hw hst
          obtain ⟨j1, j2, j3, j4⟩ := ih h1 h' (hstep_inv hi hst) (fun hn => hn c' n k1) hx
          exact ⟨j1, j2.trans k2, fun hC => j3 (k3 hC), j4.trans k4⟩
  exact fun h' hx => gen acts h h' (hinv' hr) hs hx

private theorem self_pstep {cfg : Cfg} (hfd : cfg.fdOk = true) {p p' : PS} (hi : PInv cfg p) {a : PAct} {c : ClosePc} {n : WPc}
    (hw : p.h.life.w = .selfClose c n) (hs : pstep Spec.Bind.utf8 cfg p a = .ok (some p')) :
    (∃ c', p'.h.life.w = .selfClose c' n) ∧ p'.told = p.told ∧ (p.busy = true → p'.busy = true) := by
  have call : ∀ h1, hstep cfg p.h .close = .ok (some h1) → ∃ c', h1.life.w = .selfClose c' n := fun h1 hh => (self_hstep hfd hi.h hw hh).1
  cases a with
  | life a now inner =>
    have hi' := pstep_inv hi hs
    have hh := (plife hs).1
    obtain ⟨k1, k2, k3, k4⟩ := self_hstep hfd hi.h hw hh
    refine ⟨k1, ?_, fun hb => hi'.busy.1 (k3 (hi.busy.2 hb))⟩
    have hnil : newCbs p.h.life.log p'.h.life.log = [] := by
      have := newCbs_eq (hstep_log hh)
      rw [k2] at this; simpa using this
    simp only [pstep, hh, Outcome.bind_ok, hnil, List.isEmpty_nil, Bool.not_true, Bool.false_and, Bool.false_eq_true, if_false,
      List.filterMap_nil, List.append_nil, pure, Outcome.ok.injEq, Option.some.injEq] at hs
    rw [← hs]
    simp only [pback]
    split
    · rfl
    · split <;> rfl
  | close =>
    simp only [pstep] at hs
    split at hs
    · cases hs
    · split at hs
      · simp only [pure, Outcome.ok.injEq, Option.some.injEq] at hs; subst hs; exact ⟨⟨c, hw⟩, rfl, id⟩
      · cases hh : hstep cfg p.h .close with
        | ub m => rw [hh] at hs; cases hs
        | ok o =>
          rw [hh] at hs
          cases o with
          | none => simp only [Outcome.bind_ok] at hs; cases hs
          | some h1 =>
            simp only [Outcome.bind_ok, pure, Outcome.ok.injEq, Option.some.injEq] at hs
            subst hs; exact ⟨call h1 hh, rfl, fun _ => rfl⟩
  | del =>
    simp only [pstep] at hs
    split at hs
    · cases hs
    · split at hs
      · simp only [pure, Outcome.ok.injEq, Option.some.injEq] at hs; subst hs; exact ⟨⟨c, hw⟩, rfl, id⟩
      · cases hh : hstep cfg p.h .close with
        | ub m => rw [hh] at hs; cases hs
        | ok o =>
          rw [hh] at hs
          cases o with
          | none => simp only [Outcome.bind_ok] at hs; cases hs
          | some h1 =>
            simp only [Outcome.bind_ok, pure, Outcome.ok.injEq, Option.some.injEq] at hs
            subst hs; exact ⟨call h1 hh, rfl, fun _ => rfl⟩

/-- C134: the same for a Python callback that calls `close` of its own object: a call of `close` or a deletion that was
running never returns, and the callback is not called again. -/
theorem C134_python_hangs_in_callback (cfg : Cfg) (hfd : cfg.fdOk = true) (p : PS) (hr : PReach cfg p) (hs : ¬ NotInside p.h) :
    ∀ acts p', prun Spec.Bind.utf8 cfg p acts = .ok (some p') → ¬ NotInside p'.h ∧ p'.told = p.told ∧ (p.busy = true → p'.busy = true) := by
  intro acts
  have gen : ∀ (acts : List PAct) (p p' : PS), PInv cfg p → ¬ NotInside p.h → prun Spec.Bind.utf8 cfg p acts = .ok (some p') →
      ¬ NotInside p'.h ∧ p'.told = p.told ∧ (p.busy = true → p'.busy = true) := by
    intro acts
    induction acts with
    | nil => intro p p' _ hs hx; simp only [prun, Outcome.ok.injEq, Option.some.injEq] at hx; subst hx; exact ⟨hs, rfl, id⟩
    | cons a as ih =>
      intro p p' hi hn hx
      simp only [prun] at hx
      cases hst : pstep Spec.Bind.utf8 cfg p a with
      | ub m => rw [hst] at hx; cases hx
      | ok o =>
        rw [hst] at hx
        cases o with
        | none => simp only [Outcome.bind_ok] at hx; cases hx
        | some p1 =>
          simp only [Outcome.bind_ok] at hx
          have hw : ∃ c n, p.h.life.w = .selfClose c n := by
            cases hw : p.h.life.w with
            | selfClose c n => exact ⟨c, n, rfl⟩
            | _ => exact absurd (fun c n hc => by rw [hw] at hc; cases hc) hn
          obtain ⟨c, n, hw⟩ := hw
          obtain ⟨⟨c', k1⟩, k2, k3⟩ := self_pstep hfd hi hw hst
          obtain ⟨j1, j2, j3⟩ := ih p1 p' (pstep_inv hi hst) (fun hn => hn c' n k1) hx
          exact ⟨j1, j2.trans k2, fun hb => j3 (k3 hb)⟩
  exact fun p' hx => gen acts p p' (pinv' hr) hs hx

/-! ## The hypotheses are met -/

private def endCfg : Cfg := { path := b!"/d", dirOk := true, fdOk := true }
private def muteCfg : Cfg := { path := b!"/d", dirOk := true, fdOk := false }

private theorem ran' {α : Type} {o : Outcome (Option α)} {p : α → Prop} [DecidablePred p]
    (h : (match o with | .ok (some a) => decide (p a) | _ => false) = true) : ∃ a, o = .ok (some a) ∧ p a := by
  cases o with
  | ok a =>
    cases a with
    | none => cases h
    | some a => exact ⟨a, rfl, by simpa using h⟩
  | ub => cases h

/-- A call of `wtr_watcher_close` while the live message is being delivered, also without a working stop signal. -/
example (b : Bool) : ∃ h, HReach (if b then endCfg else muteCfg) h ∧ h.inC = true ∧ NotInside h := by
  have key : ∃ h, hrun (if b then endCfg else muteCfg) (hopen (if b then endCfg else muteCfg)) [.life .w, .life .w, .life .w, .close, .life .o] = .ok (some h) ∧
      (h.inC = true ∧ (match h.life.w with | .selfClose _ _ => false | _ => true) = true) := by cases b <;> exact ran' (by decide +kernel)
  obtain ⟨h, h1, h2, h3⟩ := key
  exact ⟨h, ⟨_, h1⟩, h2, fun c n hc => by rw [hc] at h3; cases h3⟩

/-- A Rust `Watch` that is being dropped. -/
example : ∃ r, RReach Spec.Bind.utf8 endCfg r ∧ r.call = some .drop := by
  obtain ⟨r, h1, h2⟩ : ∃ r, rrun Spec.Bind.utf8 endCfg (rnew endCfg) [.life .w 1 1, .life .w 1 1, .life .w 1 1, .poll, .drop, .life .o 1 1] = .ok (some r) ∧
      r.call = some .drop := ran' (by decide +kernel)
  exact ⟨r, ⟨_, h1⟩, h2⟩

/-- A Python object that is being deleted; and one whose callback called `close` while another call is running. -/
example : ∃ p, PReach endCfg p ∧ p.busy = true ∧ p.last = true ∧ NotInside p.h := by
  obtain ⟨p, h1, h2, h3, h4⟩ : ∃ p, prun Spec.Bind.utf8 endCfg (pnew endCfg) [.life .w 1 1, .life .w 1 1, .life .w 1 1, .del, .life .o 1 1] = .ok (some p) ∧
      (p.busy = true ∧ p.last = true ∧ (match p.h.life.w with | .selfClose _ _ => false | _ => true) = true) := ran' (by decide +kernel)
  exact ⟨p, ⟨_, h1⟩, h2, h3, fun c n hc => by rw [hc] at h4; cases h4⟩

example : ∃ p, PReach endCfg p ∧ p.busy = true ∧ ¬ NotInside p.h := by
  obtain ⟨p, h1, h2, h3⟩ : ∃ p, prun Spec.Bind.utf8 endCfg (pnew endCfg) [.life .w 1 1, .life .w 1 1, .life .w 1 1, .life .cbClose 1 1, .close] = .ok (some p) ∧
      (p.busy = true ∧ (match p.h.life.w with | .selfClose _ _ => true | _ => false) = true) := ran' (by decide +kernel)
  refine ⟨p, ⟨_, h1⟩, h2, fun hn => ?_⟩
  cases hw : p.h.life.w with
  | selfClose c n => exact hn c n hw
  | _ => rw [hw] at h3; cases h3

example : ∃ h, HReach endCfg h ∧ h.inC = true ∧ ¬ NotInside h := by
  obtain ⟨h, h1, h2, h3⟩ : ∃ h, hrun endCfg (hopen endCfg) [.life .w, .life .w, .life .w, .life .cbClose, .close] = .ok (some h) ∧
      (h.inC = true ∧ (match h.life.w with | .selfClose _ _ => true | _ => false) = true) := ran' (by decide +kernel)
  refine ⟨h, ⟨_, h1⟩, h2, fun hn => ?_⟩
  cases hw : h.life.w with
  | selfClose c n => exact hn c n hw
  | _ => rw [hw] at h3; cases h3

end Verif.Props
