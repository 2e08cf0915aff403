import Verif.Lemmas.FLost5
import Verif.Lemmas.FWhole
/-! Whole histories in which nothing is moved, but directories may be removed: their reads are fine. -/
namespace Verif.Lemmas.AdF
open Verif Verif.Model Verif.Model.Ad Verif.Model.FKer Verif.Spec Verif.Spec.FKer Verif.Spec.WholeF Verif.Lemmas.FKer
open Verif.Model.Life (Cfg)

variable {rf : Bool}

theorem keeps_unmoving (rf : Bool) : Keeps rf unmoving (fun _ _ _ => True) false (fun w => KInv w.k ∧ Unmoved w.k) QInv where
  opW := fun w x h hx => ⟨(doIt_kinv h.1 x).1, doIt_unmoving h.2 x hx⟩
  opP := fun st x h hx => exec_unmoving (rf := rf) h (.op x) hx rfl
  openP := by
    intro w marks sched h hs
    refine ⟨foldMarks_hinv marks _ ⟨h.1, fun e he => by cases he⟩, ?_⟩
    have key : ∀ (ms : List Str) (st : Model.Fa.St World), VInv st.sys →
        VInv (ms.foldl (fun st d => (Model.Fa.doMark (Model.FKer.sys rf) d st).1) st).sys := by
      intro ms
      induction ms with
      | nil => intro st a; exact a
      | cons p ms ih => intro st a; exact ih _ (later_unmoving a (Fa.mark_later (Model.FKer.sys rf) p st .now))
    exact (key marks _ ⟨h.2, hs⟩).k
  recvP := by
    intro st n sched st' r h hs hf _ h1
    refine ⟨(keeps_hinv rf).recvP st n sched st' r h.h (allSched_congr (p := unmoving) (fun _ _ => rfl) hs) hf trivial h1, ?_⟩
    obtain ⟨new, o1, o2, o3⟩ := Fa.recv_drawn (Model.FKer.sys rf) (sound rf) _
      ⟨fun r hr => (h.h.k.queue r (List.mem_of_mem_take hr)).wf, hf⟩ _ _ _ h1
    exact (later_unmoving (w0 := taken st.sys n sched) ⟨h.u, hs⟩ o3).k
  safe := fun h => by cases h

/-- The reads of such a history. -/
theorem fineReads_of_unmoving {cfg : Cfg} {E : Env World} (hE : E.fa = Model.FKer.sys rf) : ∀ (hs : List HStep) (c : CS World),
    FSt (fun w => KInv w.k ∧ Unmoved w.k) QInv c → hs.all (allDo unmoving) = true → FineReads cfg E c hs := by
  intro hs
  induction hs with
  | nil => intro c _ _; trivial
  | cons a as ih =>
    intro c h hk
    rw [List.all_cons, Bool.and_eq_true] at hk
    have hw : KInv c.back.world.k ∧ Unmoved c.back.world.k := by
      cases hb : c.back with
      | none w => simp only [FSt, hb] at h; exact h.1
      | inn st => simp only [FSt, hb] at h
      | fa st => simp only [FSt, hb] at h; exact ⟨h.1.h.k, h.1.u⟩
    refine ⟨?_, fun c' hc => ih c' ((hstep_fst hE (keeps_unmoving rf) a h hk.1 (by cases a <;> trivial)).2 c' hc) hk.2⟩
    have key : ∀ n, NoSwap (c.back.world.k.queue.take n) ∧ Roomy (c.back.world.k.queue.take n) := fun n => by
      have hr : ∀ r ∈ c.back.world.k.queue.take n, r.movedFrom = false ∧ r.movedTo = false :=
        fun r hr => unmoved_rec hw.2 (hw.1.queue r (List.mem_of_mem_take hr))
      exact ⟨noswap_plain _ hr, roomy_plain hr⟩
    cases a <;> first | exact key _ | trivial

end Verif.Lemmas.AdF
