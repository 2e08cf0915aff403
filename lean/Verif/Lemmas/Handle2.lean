import Verif.Lemmas.Handle
import Verif.Lemmas.Bindings
import Verif.Spec.Handle
/-! The Rust and Python objects: invariants. -/
namespace Verif.Lemmas.Handle
open Verif Verif.Model Verif.Model.Life Verif.Model.Handle Verif.Spec Verif.Spec.Hd Verif.Lemmas.Life

theorem callbacks_filterMap (l : List Obs) : callbacks l = l.filterMap (fun | .cb e => some e | _ => none) := by
  induction l with
  | nil => rfl
  | cons x xs ih => cases x <;> simp [callbacks, ih]

theorem newCbs_eq {old new : List Obs} (h : ∃ x, new = old ++ x) : callbacks new = callbacks old ++ newCbs old new := by
  obtain ⟨x, rfl⟩ := h
  simp [newCbs, callbacks_filterMap]
  exact congrArg (fun f => List.filterMap f x) (by funext o; cases o <;> rfl)

theorem settle_log (cfg : Cfg) (h : H) : ∃ x, (settle cfg h).life.log = h.life.log ++ x := by
  simp only [settle]
  split
  · exact ⟨[], by simp⟩
  · split
    · split
      · split
        · rename_i hs; exact step_log hs
        · exact ⟨[], by simp⟩
      · exact ⟨[], by simp⟩
    · exact ⟨[], by simp⟩
    · exact ⟨[], by simp⟩

theorem hstep_log {cfg : Cfg} {h h' : H} {a : HAct} (hs : hstep cfg h a = .ok (some h')) : ∃ x, h'.life.log = h.life.log ++ x := by
  cases a with
  | life a =>
    simp only [hstep] at hs
    split at hs
    · cases hl : step cfg h.life a with
      | none => rw [hl] at hs; simp at hs
      | some l =>
        rw [hl] at hs; simp at hs; subst hs
        obtain ⟨x, hx⟩ := step_log hl
        obtain ⟨y, hy⟩ := settle_log cfg { h with life := l }
        exact ⟨x ++ y, by rw [hy]; simp [hx]⟩
    · simp at hs
  | close =>
    simp only [hstep] at hs
    split at hs
    · simp at hs
    · split at hs
      · cases hs
      · cases hl : step cfg h.life .oClose with
        | none => rw [hl] at hs; simp at hs
        | some l => rw [hl] at hs; simp at hs; subst hs; exact step_log hl

theorem close_inC {cfg : Cfg} {h h' : H} (hs : hstep cfg h .close = .ok (some h')) :
    h'.inC = true ∧ callbacks h'.life.log = callbacks h.life.log := by
  simp only [hstep] at hs
  split at hs
  · simp at hs
  · split at hs
    · cases hs
    · cases hl : step cfg h.life .oClose with
      | none => rw [hl] at hs; simp at hs
      | some l => rw [hl] at hs; simp at hs; subst hs; exact ⟨rfl, (owner_frame rfl hl).2.2⟩

/-- After a call has returned (working stop signal) the thread has ended. -/
theorem ended_of_rets {cfg : Cfg} (hfd : cfg.fdOk = true) {h : H} (hi : HInv cfg h) (hC : h.inC = false) (hr : h.rets ≠ []) :
    h.life.w = .finished := by
  have hl : h.rets = rets h.life.log := by
    rcases hi.out hC with ⟨_, _, h3, _⟩ | ⟨_, _, h3, _⟩ <;> exact h3
  have : ∃ b, Obs.closeRet b ∈ h.life.log := by
    cases hh : h.rets with
    | nil => exact absurd hh hr
    | cons b bs => exact ⟨b, mem_rets.1 (by rw [← hl, hh]; exact List.mem_cons_self)⟩
  exact finished_of_invalid (fut_reachable hi.reach) ((sig_reachable hfd hi.reach).ret this).1

/-- A finished thread delivers nothing in a step of the handle. -/
theorem finished_hstep {cfg : Cfg} {h h' : H} {a : HAct} (hw : h.life.w = .finished) (hs : hstep cfg h a = .ok (some h')) :
    h'.life.w = .finished ∧ callbacks h'.life.log = callbacks h.life.log := by
  cases a with
  | life a =>
    simp only [hstep] at hs
    split at hs
    · cases hl : step cfg h.life a with
      | none => rw [hl] at hs; simp at hs
      | some l =>
        rw [hl] at hs; simp at hs; subst hs
        obtain ⟨k1, k2, _⟩ := finished_step hw hl
        simp only [settle]
        split
        · exact ⟨k1, k2⟩
        · split
          · split
            · split
              · rename_i hd
                obtain ⟨j1, j2, _⟩ := finished_step k1 hd
                exact ⟨j1, j2.trans k2⟩
              · exact ⟨k1, k2⟩
            · exact ⟨k1, k2⟩
          · exact ⟨k1, k2⟩
          · exact ⟨k1, k2⟩
    · simp at hs
  | close =>
    simp only [hstep] at hs
    split at hs
    · simp at hs
    · split at hs
      · cases hs
      · cases hl : step cfg h.life .oClose with
        | none => rw [hl] at hs; simp at hs
        | some l => rw [hl] at hs; simp at hs; subst hs; exact ⟨(finished_step hw hl).1, (finished_step hw hl).2.1⟩

theorem empty_of_finished {cfg : Cfg} {h h' : H} {a : HAct} (hw : h.life.w = .finished) (hs : hstep cfg h a = .ok (some h')) :
    newCbs h.life.log h'.life.log = [] := by
  have h1 := newCbs_eq (hstep_log hs)
  rw [(finished_hstep hw hs).2] at h1
  simpa using h1

/-- A step that ends a call leaves an answer. -/
theorem settle_rets {cfg : Cfg} {h : H} (hC : h.inC = true) (hC' : (settle cfg h).inC = false) : (settle cfg h).rets ≠ [] := by
  simp only [settle, hC, Bool.not_true, Bool.false_eq_true, if_false] at hC' ⊢
  cases ho : h.life.o with
  | idle =>
    simp only [ho] at hC' ⊢
    split at hC'
    · split at hC' <;> simp [hC] at hC'
    · rename_i hx; rw [if_neg hx]; simp
  | gone => simp
  | _ => simp only [ho] at hC'; simp [hC] at hC'

theorem settle_same {cfg : Cfg} {h : H} (hC : h.inC = false) : settle cfg h = h := by simp [settle, hC]

/-! ### Rust -/

theorem cRead_upToNul (s : Str) : Model.Bind.cRead s = upToNul s := by
  induction s with
  | nil => rfl
  | cons c s ih =>
    simp only [Model.Bind.cRead, List.takeWhile_cons, upToNul] at ih ⊢
    by_cases h : c = 0
    · simp [h]
    · simp only [h, ne_eq, not_false_eq_true, decide_true, if_true, if_false]; rw [← ih]

theorem rsStr_asText (s : Str) : Model.Bind.rsStr Spec.Bind.utf8 (Model.Bind.cRead s) = asText s := by
  rw [cRead_upToNul]; rfl

theorem sameEvent (e : Ev) (now inner : Int) : SameEvent e (rsOf Spec.Bind.utf8 now inner e) := by
  obtain ⟨p, ef, pt, a⟩ := e
  cases a with
  | none =>
    refine ⟨rsStr_asText p, fun _ => rfl, fun a h => by simp at h, ?_, ?_⟩
    · cases ef <;> rfl
    · cases pt <;> rfl
  | some a =>
    refine ⟨rsStr_asText p, fun h => by simp at h, fun b hb => ?_, ?_, ?_⟩
    · simp only [Option.some.injEq] at hb; subst hb; exact congrArg some (rsStr_asText _)
    · cases ef <;> rfl
    · cases pt <;> rfl

theorem oneForOne_append {a b : List Ev} {x y} (h : OneForOne a x) (g : OneForOne b y) : OneForOne (a ++ b) (x ++ y) := by
  induction h with
  | nil => exact g
  | cons h t ih => exact .cons h ih

theorem oneForOne_map (l : List Ev) (now inner : Int) : OneForOne l (l.map (rsOf Spec.Bind.utf8 now inner)) := by
  induction l with
  | nil => exact .nil
  | cons e es ih => exact .cons (sameEvent e now inner) ih

theorem yielded_append (a b : List Polled) : yielded (a ++ b) = yielded a ++ yielded b := by
  induction a with
  | nil => rfl
  | cons x xs ih => cases x <;> simp [yielded, ih]

structure RInv (cfg : Cfg) (r : RS) : Prop where
  h : HInv cfg r.h
  busy : r.h.inC = true ↔ r.call ≠ none
  gone : r.gone = true → r.call = none ∧ r.h.rets ≠ []
  senders : r.gone = false → r.senders = 1
  never : Polled.ended ∉ r.polls
  same : OneForOne (callbacks r.h.life.log) (yielded r.polls ++ r.chan)

theorem rinv_new (cfg : Cfg) : RInv cfg (rnew cfg) :=
  ⟨hinv_open cfg, by simp [rnew, hopen], by simp [rnew], fun _ => rfl, by simp [rnew], .nil⟩

theorem rstep_inv {cfg : Cfg} {r r' : RS} (hi : RInv cfg r) {a : RAct} (hs : rstep Spec.Bind.utf8 cfg r a = .ok (some r')) : RInv cfg r' := by
  obtain ⟨h, busy, gone, senders, never, same⟩ := hi
  cases a with
  | life a now inner =>
    simp only [rstep] at hs
    split at hs
    · cases hs
    · cases hh : hstep cfg r.h (.life a) with
      | ub m => rw [hh] at hs; cases hs
      | ok o =>
        rw [hh] at hs
        cases o with
        | none => simp only [Outcome.bind_ok] at hs; cases hs
        | some h1 =>
          simp only [Outcome.bind_ok] at hs
          split at hs
          · cases hs
          · simp only [pure, Outcome.ok.injEq, Option.some.injEq] at hs
            subst hs
            have hi1 := hstep_inv h hh
            have hn := newCbs_eq (hstep_log hh)
            have same1 : OneForOne (callbacks h1.life.log)
                (yielded r.polls ++ (r.chan ++ (newCbs r.h.life.log h1.life.log).map (rsOf Spec.Bind.utf8 now inner))) := by
              rw [hn, ← List.append_assoc]
              exact oneForOne_append same (oneForOne_map _ _ _)
            have hrets : r.h.inC = true → h1.inC = false → h1.rets ≠ [] := by
              intro g1 g2
              simp only [hstep] at hh
              split at hh
              · cases hl : step cfg r.h.life a with
                | none => rw [hl] at hh; simp at hh
                | some l => rw [hl] at hh; simp at hh; subst hh; exact settle_rets (h := { r.h with life := l }) g1 g2
              · simp at hh
            have hC0 : r.h.inC = false → h1.inC = false ∧ h1.rets = r.h.rets := by
              intro g1
              simp only [hstep] at hh
              split at hh
              · cases hl : step cfg r.h.life a with
                | none => rw [hl] at hh; simp at hh
                | some l => rw [hl] at hh; simp at hh; subst hh; rw [settle_same (h := { r.h with life := l }) g1]; exact ⟨g1, rfl⟩
              · simp at hh
            simp only [back]
            cases hc1 : h1.inC with
            | true =>
              simp only [if_true]
              have : r.h.inC = true := by
                cases hx : r.h.inC with
                | true => rfl
                | false => rw [(hC0 hx).1] at hc1; cases hc1
              exact ⟨hi1, by simp [hc1]; exact busy.1 this, fun hg => absurd (gone hg).1 (busy.1 this), senders, never, same1⟩
            | false =>
              simp only [Bool.false_eq_true, if_false]
              cases hcall : r.call with
              | none =>
                refine ⟨hi1, by simp [hc1], ?_, senders, never, same1⟩
                intro hg
                have : r.h.inC = false := by
                  cases hx : r.h.inC with
                  | false => rfl
                  | true => exact absurd hcall (busy.1 hx)
                refine ⟨rfl, ?_⟩
                simp only
                rw [(hC0 this).2]; exact (gone hg).2
              | some c =>
                have hb : r.h.inC = true := busy.2 (by simp [hcall])
                have hng : r.gone = false := by
                  cases hx : r.gone with
                  | false => rfl
                  | true => exact absurd ((gone hx).1) (by simp [hcall])
                cases c with
                | close => exact ⟨hi1, by simp [hc1], fun hg => by simp [hng] at hg, senders, never, same1⟩
                | drop => exact ⟨hi1, by simp [hc1], fun _ => ⟨rfl, hrets hb hc1⟩, fun hg => by simp at hg, never, same1⟩
  | close =>
    simp only [rstep] at hs
    split at hs
    · cases hs
    · rename_i hx
      simp at hx
      cases hh : hstep cfg r.h .close with
      | ub m => rw [hh] at hs; cases hs
      | ok o =>
        rw [hh] at hs
        cases o with
        | none => simp only [Outcome.bind_ok] at hs; cases hs
        | some h1 =>
          simp only [Outcome.bind_ok, pure, Outcome.ok.injEq, Option.some.injEq] at hs
          subst hs
          have hc := close_inC hh
          exact ⟨hstep_inv h hh, by simp [hc.1], fun hg => by simp [hx.2] at hg, senders, never, by simp only [hc.2]; exact same⟩
  | drop =>
    simp only [rstep] at hs
    split at hs
    · cases hs
    · rename_i hx
      simp at hx
      cases hh : hstep cfg r.h .close with
      | ub m => rw [hh] at hs; cases hs
      | ok o =>
        rw [hh] at hs
        cases o with
        | none => simp only [Outcome.bind_ok] at hs; cases hs
        | some h1 =>
          simp only [Outcome.bind_ok, pure, Outcome.ok.injEq, Option.some.injEq] at hs
          subst hs
          have hc := close_inC hh
          exact ⟨hstep_inv h hh, by simp [hc.1], fun hg => by simp [hx.2] at hg, senders, never, by simp only [hc.2]; exact same⟩
  | poll =>
    simp only [rstep] at hs
    split at hs
    · simp at hs
    · rename_i hx
      simp at hx
      split at hs
      · rename_i e es hch
        simp at hs; subst hs
        refine ⟨h, busy, gone, senders, by simp [never], ?_⟩
        simp only [yielded_append, yielded, List.append_assoc, List.cons_append, List.nil_append]
        rw [hch] at same
        exact same
      · rename_i hch
        simp at hs; subst hs
        have hsn := senders hx.2
        refine ⟨h, busy, gone, senders, by simp [never, hsn], ?_⟩
        simp only [yielded_append, hsn]
        rw [hch] at same
        simpa [yielded, hch] using same

theorem rrun_inv {cfg : Cfg} : ∀ (acts : List RAct) (r r' : RS), RInv cfg r → rrun Spec.Bind.utf8 cfg r acts = .ok (some r') → RInv cfg r' := by
  intro acts
  induction acts with
  | nil => intro r r' hi hr; simp only [rrun, Outcome.ok.injEq, Option.some.injEq] at hr; exact hr ▸ hi
  | cons a as ih =>
    intro r r' hi hr
    simp only [rrun] at hr
    cases hs : rstep Spec.Bind.utf8 cfg r a with
    | ub m => rw [hs] at hr; cases hr
    | ok o =>
      rw [hs] at hr
      cases o with
      | none => simp only [Outcome.bind_ok] at hr; cases hr
      | some r1 => simp only [Outcome.bind_ok] at hr; exact ih r1 r' (rstep_inv hi hs) hr

/-- When a Rust step is undefined. -/
theorem rstep_ub {cfg : Cfg} {r : RS} (hi : RInv cfg r) {a : RAct} {m : String} (hs : rstep Spec.Bind.utf8 cfg r a = .ub m) :
    ((a = .close ∨ a = .drop) ∧ r.call = none ∧ r.gone = false ∧ r.h.freed = true) ∨
    (r.gone = true ∧ r.h.life.w ≠ .finished) := by
  cases a with
  | life a now inner =>
    simp only [rstep] at hs
    split at hs
    · cases hs
    · cases hh : hstep cfg r.h (.life a) with
      | ub m' => exact absurd (hstep_ub hh).1 (by simp)
      | ok o =>
        rw [hh] at hs
        cases o with
        | none => simp only [Outcome.bind_ok] at hs; cases hs
        | some h1 =>
          simp only [Outcome.bind_ok] at hs
          split at hs
          · rename_i hx
            simp only [Bool.and_eq_true, Bool.not_eq_true'] at hx
            refine .inr ⟨hx.2, ?_⟩
            intro hw
            rw [empty_of_finished hw hh] at hx
            simp at hx
          · cases hs
  | close =>
    simp only [rstep] at hs
    split at hs
    · cases hs
    · rename_i hx
      simp at hx
      cases hh : hstep cfg r.h .close with
      | ub m' => exact .inl ⟨.inl rfl, hx.1, hx.2, (hstep_ub hh).2.2⟩
      | ok o =>
        rw [hh] at hs
        cases o <;> (simp only [Outcome.bind_ok] at hs; cases hs)
  | drop =>
    simp only [rstep] at hs
    split at hs
    · cases hs
    · rename_i hx
      simp at hx
      cases hh : hstep cfg r.h .close with
      | ub m' => exact .inl ⟨.inr rfl, hx.1, hx.2, (hstep_ub hh).2.2⟩
      | ok o =>
        rw [hh] at hs
        cases o <;> (simp only [Outcome.bind_ok] at hs; cases hs)
  | poll =>
    simp only [rstep] at hs
    split at hs
    · cases hs
    · split at hs <;> cases hs

/-! ### Python -/

/-- What Python gets of an event. -/
theorem samePy (e : Ev) (now inner : Int) :
    (Readable e → ∃ p, pyOf Spec.Bind.utf8 now inner e = some p ∧ SamePy e p) ∧ (¬ Readable e → pyOf Spec.Bind.utf8 now inner e = none) := by
  have eff : ∀ ef : EffectType, Model.Bind.byCode Model.Bind.pyEffects (ef.toNat : Int) = some (effectName ef) := by
    intro ef; cases ef <;> rfl
  have pth : ∀ pt : PathType, Model.Bind.byCode Model.Bind.pyPaths (pt.toNat : Int) = some (pathTypeName pt) := by
    intro pt; cases pt <;> rfl
  obtain ⟨p, ef, pt, a⟩ := e
  cases a with
  | none =>
    have hv : ∃ t, Model.Bind.cView (Ev.stamp now inner ⟨p, ef, pt, none⟩) = ⟨t, Model.Bind.cRead p, none, (ef.toNat : Int), (pt.toNat : Int)⟩ :=
      ⟨_, rfl⟩
    obtain ⟨t, hv⟩ := hv
    simp only [pyOf, Model.Bind.pyEvent, hv, Model.Bind.pyAssoc, Model.Bind.pyDecode, cRead_upToNul,
      eff, pth, Readable, Option.bind_eq_bind, Option.bind_some]
    refine ⟨fun h => ?_, fun h => ?_⟩
    · rw [if_pos h.1]
      exact ⟨_, rfl, rfl, fun _ => rfl, fun a ha => by simp at ha, rfl, rfl⟩
    · rw [if_neg (fun g => h ⟨g, fun a ha => by simp at ha⟩)]; rfl
  | some a =>
    have hv : ∃ t, Model.Bind.cView (Ev.stamp now inner ⟨p, ef, pt, some a⟩) =
        ⟨t, Model.Bind.cRead p, some (Model.Bind.cRead a.path), (ef.toNat : Int), (pt.toNat : Int)⟩ := ⟨_, rfl⟩
    obtain ⟨t, hv⟩ := hv
    simp only [pyOf, Model.Bind.pyEvent, hv, Model.Bind.pyAssoc, Model.Bind.pyDecode, cRead_upToNul,
      eff, pth, Readable, Option.bind_eq_bind, Option.bind_some]
    refine ⟨fun h => ?_, fun h => ?_⟩
    · have h2 := h.2 a rfl
      rw [if_pos h.1, if_pos h2]
      refine ⟨_, rfl, rfl, fun h => by simp at h, fun b hb => ?_, rfl, rfl⟩
      simp only [Option.some.injEq] at hb; subst hb; rfl
    · by_cases h1 : Spec.Bind.utf8 (upToNul p) = true
      · rw [if_pos h1, if_neg (fun g => h ⟨h1, fun b hb => by simp only [Option.some.injEq] at hb; subst hb; exact g⟩)]; rfl
      · rw [if_neg h1]; rfl

theorem heard_append {a b : List Ev} {x y} (h : Heard a x) (g : Heard b y) : Heard (a ++ b) (x ++ y) := by
  induction h with
  | nil => exact g
  | told r h _ ih => exact .told r h ih
  | missed r _ ih => exact .missed r ih

theorem heard_map (l : List Ev) (now inner : Int) : Heard l (l.filterMap (pyOf Spec.Bind.utf8 now inner)) := by
  induction l with
  | nil => exact .nil
  | cons e es ih =>
    by_cases hr : Readable e
    · obtain ⟨p, h1, h2⟩ := (samePy e now inner).1 hr
      rw [List.filterMap_cons_some h1]; exact .told hr h2 ih
    · rw [List.filterMap_cons_none ((samePy e now inner).2 hr)]; exact .missed hr ih

structure PInv (cfg : Cfg) (p : PS) : Prop where
  h : HInv cfg p.h
  busy : p.h.inC = true ↔ p.busy = true
  held : p.attr = true → p.h.inC = false → p.h.rets = []
  let_go : p.attr = false → p.h.inC = false ∧ p.h.rets.length = 1
  one : p.h.inC = true → p.h.rets = []
  dead : p.alive = false → p.h.inC = false ∧ p.attr = false
  same : Heard (callbacks p.h.life.log) p.told

theorem pinv_new (cfg : Cfg) : PInv cfg (pnew cfg) :=
  ⟨hinv_open cfg, by simp [pnew, hopen], fun _ _ => rfl, by simp [pnew], fun _ => rfl, by simp [pnew], .nil⟩

theorem settle_len {cfg : Cfg} {h : H} (hC : h.inC = true) :
    ((settle cfg h).inC = true ∧ (settle cfg h).rets = h.rets) ∨
    ((settle cfg h).inC = false ∧ (settle cfg h).rets.length = h.rets.length + 1) := by
  simp only [settle, hC, Bool.not_true, Bool.false_eq_true, if_false]
  cases ho : h.life.o with
  | idle =>
    simp only
    split
    · split
      · exact .inl ⟨rfl, rfl⟩
      · exact .inl ⟨hC, rfl⟩
    · exact .inr ⟨rfl, by simp⟩
  | gone => exact .inr ⟨rfl, by simp⟩
  | _ => exact .inl ⟨hC, rfl⟩

theorem hlife_len {cfg : Cfg} {h h1 : H} {a : Act} (hh : hstep cfg h (.life a) = .ok (some h1)) :
    (h.inC = false → h1.inC = false ∧ h1.rets = h.rets) ∧
    (h.inC = true → (h1.inC = true ∧ h1.rets = h.rets) ∨ (h1.inC = false ∧ h1.rets.length = h.rets.length + 1)) := by
  simp only [hstep] at hh
  split at hh
  · cases hl : step cfg h.life a with
    | none => rw [hl] at hh; simp at hh
    | some l =>
      rw [hl] at hh; simp at hh; subst hh
      refine ⟨?_, ?_⟩
      · intro g; rw [settle_same (h := { h with life := l }) g]; exact ⟨g, rfl⟩
      · intro g; exact settle_len (h := { h with life := l }) g
  · simp at hh

theorem hclose_rets {cfg : Cfg} {h h' : H} (hs : hstep cfg h .close = .ok (some h')) : h'.rets = h.rets := by
  simp only [hstep] at hs
  split at hs
  · simp at hs
  · split at hs
    · cases hs
    · cases hl : step cfg h.life .oClose with
      | none => rw [hl] at hs; simp at hs
      | some l => rw [hl] at hs; simp at hs; subst hs; rfl

theorem pstep_inv {cfg : Cfg} {p p' : PS} (hi : PInv cfg p) {a : PAct} (hs : pstep Spec.Bind.utf8 cfg p a = .ok (some p')) : PInv cfg p' := by
  obtain ⟨h, busy, held, let_go, one, dead, same⟩ := hi
  have call : ∀ (last : Bool) h1, p.busy = false → p.alive = true → p.attr = true → hstep cfg p.h .close = .ok (some h1) →
      PInv cfg { p with h := h1, busy := true, last := last } := by
    intro last h1 hb ha hat hh
    have hc := close_inC hh
    have hC0 : p.h.inC = false := by
      cases hx : p.h.inC with
      | false => rfl
      | true => rw [busy.1 hx] at hb; cases hb
    refine ⟨hstep_inv h hh, by simp [hc.1], fun _ g => by simp [hc.1] at g, fun g => by simp [hat] at g, fun _ => ?_, fun g => by simp [ha] at g, ?_⟩
    · simp only; rw [hclose_rets hh]; exact held hat hC0
    · simp only [hc.2]; exact same
  cases a with
  | life a now inner =>
    simp only [pstep] at hs
    cases hh : hstep cfg p.h (.life a) with
    | ub m => rw [hh] at hs; cases hs
    | ok o =>
      rw [hh] at hs
      cases o with
      | none => simp only [Outcome.bind_ok] at hs; cases hs
      | some h1 =>
        simp only [Outcome.bind_ok] at hs
        split at hs
        · cases hs
        · simp only [pure, Outcome.ok.injEq, Option.some.injEq] at hs
          subst hs
          have hi1 := hstep_inv h hh
          have hn := newCbs_eq (hstep_log hh)
          have same1 : Heard (callbacks h1.life.log) (p.told ++ (newCbs p.h.life.log h1.life.log).filterMap (pyOf Spec.Bind.utf8 now inner)) := by
            rw [hn]; exact heard_append same (heard_map _ now inner)
          obtain ⟨l1, l2⟩ := hlife_len hh
          simp only [pback]
          cases hb : p.h.inC with
          | false =>
            obtain ⟨g1, g2⟩ := l1 hb
            have hnb : p.busy = false := by
              cases hx : p.busy with
              | false => rfl
              | true => rw [busy.2 hx] at hb; cases hb
            simp only [g1, hnb, Bool.false_eq_true, if_false]
            refine ⟨hi1, by simp [g1], fun ha _ => ?_, fun ha => ⟨g1, ?_⟩, fun g => by simp [g1] at g, fun g => ⟨g1, (dead g).2⟩, same1⟩
            · simp only; rw [g2]; exact held ha hb
            · simp only; rw [g2]; exact (let_go ha).2
          | true =>
            have hpb := busy.1 hb
            have hat : p.attr = true := by
              cases hx : p.attr with
              | true => rfl
              | false => rw [(let_go hx).1] at hb; cases hb
            have hal : p.alive = true := by
              cases hx : p.alive with
              | true => rfl
              | false => rw [(dead hx).1] at hb; cases hb
            rcases l2 hb with ⟨g1, g2⟩ | ⟨g1, g2⟩
            · simp only [g1, if_true]
              refine ⟨hi1, by simp [g1, hpb], fun _ g => by simp [g1] at g, fun ha => by simp [hat] at ha, fun _ => ?_, fun g => by simp [hal] at g, same1⟩
              simp only; rw [g2]; exact one hb
            · simp only [g1, Bool.false_eq_true, if_false, hpb, if_true]
              refine ⟨hi1, by simp [g1], fun ha => by simp at ha, fun _ => ⟨g1, ?_⟩, fun g => by simp [g1] at g, fun _ => ⟨g1, rfl⟩, same1⟩
              simp only; rw [g2, one hb]; rfl
  | close =>
    simp only [pstep] at hs
    split at hs
    · cases hs
    · rename_i hx
      simp at hx
      split at hs
      · simp only [pure, Outcome.ok.injEq, Option.some.injEq] at hs
        subst hs
        exact ⟨h, busy, held, let_go, one, dead, same⟩
      · rename_i hat
        simp at hat
        cases hh : hstep cfg p.h .close with
        | ub m => rw [hh] at hs; cases hs
        | ok o =>
          rw [hh] at hs
          cases o with
          | none => simp only [Outcome.bind_ok] at hs; cases hs
          | some h1 =>
            simp only [Outcome.bind_ok, pure, Outcome.ok.injEq, Option.some.injEq] at hs
            subst hs
            exact call p.last h1 hx.1 hx.2 hat hh
  | del =>
    simp only [pstep] at hs
    split at hs
    · cases hs
    · rename_i hx
      simp at hx
      split at hs
      · rename_i hat
        simp at hat
        simp only [pure, Outcome.ok.injEq, Option.some.injEq] at hs
        subst hs
        exact ⟨h, busy, held, let_go, one, fun _ => ⟨(let_go hat).1, hat⟩, same⟩
      · rename_i hat
        simp at hat
        cases hh : hstep cfg p.h .close with
        | ub m => rw [hh] at hs; cases hs
        | ok o =>
          rw [hh] at hs
          cases o with
          | none => simp only [Outcome.bind_ok] at hs; cases hs
          | some h1 =>
            simp only [Outcome.bind_ok, pure, Outcome.ok.injEq, Option.some.injEq] at hs
            subst hs
            exact call true h1 hx.1 hx.2 hat hh

theorem prun_inv {cfg : Cfg} : ∀ (acts : List PAct) (p p' : PS), PInv cfg p → prun Spec.Bind.utf8 cfg p acts = .ok (some p') → PInv cfg p' := by
  intro acts
  induction acts with
  | nil => intro r r' hi hr; simp only [prun, Outcome.ok.injEq, Option.some.injEq] at hr; exact hr ▸ hi
  | cons a as ih =>
    intro r r' hi hr
    simp only [prun] at hr
    cases hs : pstep Spec.Bind.utf8 cfg r a with
    | ub m => rw [hs] at hr; cases hr
    | ok o =>
      rw [hs] at hr
      cases o with
      | none => simp only [Outcome.bind_ok] at hr; cases hr
      | some r1 => simp only [Outcome.bind_ok] at hr; exact ih r1 r' (pstep_inv hi hs) hr

/-- When a Python step is undefined. -/
theorem pstep_ub {cfg : Cfg} {p : PS} (hi : PInv cfg p) {a : PAct} {m : String} (hs : pstep Spec.Bind.utf8 cfg p a = .ub m) :
    p.alive = false ∧ p.h.life.w ≠ .finished := by
  have nofree : p.busy = false → p.attr = true → p.h.freed = false := by
    intro hb ha
    have hC : p.h.inC = false := by
      cases hx : p.h.inC with
      | false => rfl
      | true => rw [hi.busy.1 hx] at hb; cases hb
    rcases hi.h.out hC with ⟨g, _⟩ | ⟨_, _, _, l, g, _⟩
    · exact g
    · rw [hi.held ha hC] at g; simp at g
  have close : ∀ m', p.busy = false → p.attr = true → hstep cfg p.h .close = .ub m' → False := by
    intro m' hb ha hh
    have := (hstep_ub hh).2.2
    rw [nofree hb ha] at this; cases this
  cases a with
  | life a now inner =>
    simp only [pstep] at hs
    cases hh : hstep cfg p.h (.life a) with
    | ub m' => exact absurd (hstep_ub hh).1 (by simp)
    | ok o =>
      rw [hh] at hs
      cases o with
      | none => simp only [Outcome.bind_ok] at hs; cases hs
      | some h1 =>
        simp only [Outcome.bind_ok] at hs
        split at hs
        · rename_i hx
          simp only [Bool.and_eq_true, Bool.not_eq_true'] at hx
          refine ⟨hx.2, ?_⟩
          intro hw
          rw [empty_of_finished hw hh] at hx
          simp at hx
        · cases hs
  | close =>
    simp only [pstep] at hs
    split at hs
    · cases hs
    · rename_i hx
      simp at hx
      split at hs
      · cases hs
      · rename_i hat
        simp at hat
        cases hh : hstep cfg p.h .close with
        | ub m' => exact (close m' hx.1 hat hh).elim
        | ok o => rw [hh] at hs; cases o <;> (simp only [Outcome.bind_ok] at hs; cases hs)
  | del =>
    simp only [pstep] at hs
    split at hs
    · cases hs
    · rename_i hx
      simp at hx
      split at hs
      · cases hs
      · rename_i hat
        simp at hat
        cases hh : hstep cfg p.h .close with
        | ub m' => exact (close m' hx.1 hat hh).elim
        | ok o => rw [hh] at hs; cases o <;> (simp only [Outcome.bind_ok] at hs; cases hs)

end Verif.Lemmas.Handle
