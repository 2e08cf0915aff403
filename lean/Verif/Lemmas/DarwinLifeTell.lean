import Verif.Lemmas.DarwinLife
/-! What was told (`Tell`) along all schedules of `Model/DarwinLife.lean`. -/
namespace Verif.Lemmas.DLife
open Verif Verif.Model Verif.Model.DLife Verif.Spec.DLife
open Verif.Model.Darwin (Note Ctx recvOne recvAll onCreate onRemove onModify onRename)

variable {d : Bool}

/-- What is done with a notification does not depend on what was sent before. -/
theorem recvOne_out (c : Ctx) (o : List Ev) (n : Note) :
    recvOne { c with out := o } n = { recvOne { c with out := [] } n with out := o ++ (recvOne { c with out := [] } n).out } := by
  have cr : ∀ (c : Ctx) (o p : List Ev) f pt, onCreate { c with out := o ++ p } n.path f pt =
      { onCreate { c with out := p } n.path f pt with out := o ++ (onCreate { c with out := p } n.path f pt).out } := by
    intro c o p f pt; simp only [onCreate, Ctx.send]; split <;> (try split) <;> simp
  have rm : ∀ (c : Ctx) (o p : List Ev) f pt, onRemove { c with out := o ++ p } n.path f pt =
      { onRemove { c with out := p } n.path f pt with out := o ++ (onRemove { c with out := p } n.path f pt).out } := by
    intro c o p f pt; simp only [onRemove, Ctx.send]; split <;> (try split) <;> simp
  have mo : ∀ (c : Ctx) (o p : List Ev) f pt, onModify { c with out := o ++ p } n.path f pt =
      { onModify { c with out := p } n.path f pt with out := o ++ (onModify { c with out := p } n.path f pt).out } := by
    intro c o p f pt; simp only [onModify, Ctx.send]; split <;> (try split) <;> simp
  have rn : ∀ (c : Ctx) (o p : List Ev) f pt m, onRename { c with out := o ++ p } n.path f pt m =
      { onRename { c with out := p } n.path f pt m with out := o ++ (onRename { c with out := p } n.path f pt m).out } := by
    intro c o p f pt m; simp only [onRename, Ctx.send]; split <;> (try split) <;> simp
  simp only [recvOne]
  split
  · simp [Ctx.send]
  · have h1 := cr c o [] n.flags (Darwin.ptypeOf n.flags)
    rw [List.append_nil] at h1
    rw [h1]
    generalize onCreate { c with out := [] } n.path n.flags (Darwin.ptypeOf n.flags) = c1
    have h2 := rm c1 o c1.out n.flags (Darwin.ptypeOf n.flags)
    rw [h2]
    generalize onRemove { c1 with out := c1.out } n.path n.flags (Darwin.ptypeOf n.flags) = c2
    have h3 := mo c2 o c2.out n.flags (Darwin.ptypeOf n.flags)
    rw [h3]
    generalize onModify { c2 with out := c2.out } n.path n.flags (Darwin.ptypeOf n.flags) = c3
    have h4 := rn c3 o c3.out n.flags (Darwin.ptypeOf n.flags) n.missing
    rw [h4]

theorem story_stream {op fut done cbs w} (h : Story d op fut s done cbs w) (hw : inWatch w = true) : cbs = .live true :: done.map .ev ∧ op ≠ [] := by
  cases w <;> simp [inWatch] at hw <;> simp [Story] at h <;> simp [h]

theorem story_done {op fut st done done' cbs w} (h : Story d op fut st done cbs w) (hw : inWatch w = true) (hc : cbs' = .live true :: done'.map .ev) :
    Story d op fut st done' cbs' w := by
  cases w <;> simp [inWatch] at hw <;> simp [Story] at h ⊢ <;> simp [h, hc]

theorem tell_k {s s' : St} {acts : List Act} {done : List Ev} {handled : List Note} (hc : Ctl s) (h : Tell d acts s done handled) (hs : kStep s = some s') :
    ∃ done' handled', Tell d (acts ++ [.k]) s' done' handled' := by
  have ho : opens (acts ++ [.k]) = opens acts := by simp [opens_append, opens]
  have hin : s.k ≠ .free → inWatch s.w = true := by
    intro hk
    apply hc.inw
    cases hst : s.stream
    · exact absurd (hc.quiet hst).1 hk
    · rfl
  obtain ⟨h1,h2,h3,h4⟩ := h
  unfold kStep at hs
  split at hs
  · rename_i e es ns hk
    have hi := hin (by rw [hk]; simp)
    obtain ⟨hcb, hop⟩ := story_stream h4 hi
    injection hs with hs; subst hs
    refine ⟨done ++ [e], handled, ?_, ?_, ?_, ?_⟩
    · simpa [restK, hk] using h1
    · simpa [esK, hk] using h2
    · rw [ho]; intro e; exact absurd e hop
    · rw [ho]
      refine story_done h4 hi ?_
      simp [cbs_cb, hcb]
  · rename_i n ns hk
    have hi := hin (by rw [hk]; simp)
    obtain ⟨hcb, hop⟩ := story_stream h4 hi
    injection hs with hs; subst hs
    refine ⟨done, handled ++ [n], ?_, ?_, ?_, ?_⟩
    · simpa [restK, hk] using h1
    · have : recvAll {} (handled ++ [n]) = recvOne (recvAll {} handled) n := by simp [recvAll]
      rw [this, h2]
      simp only [esK, hk, List.append_nil]
      exact recvOne_out _ _ _
    · rw [ho]; intro e; exact absurd e hop
    · rw [ho]; exact h4
  · rename_i hk
    injection hs with hs; subst hs
    refine ⟨done, handled, ?_, ?_, ?_, ?_⟩
    · simpa [restK, hk] using h1
    · simpa [esK, hk] using h2
    · rw [ho]; exact h3
    · rw [ho]; exact h4
  · rename_i c es ns hk
    refine ⟨done, handled, ?_⟩
    unfold closeStep at hs
    (repeat' split at hs) <;> simp at hs <;> (try subst hs) <;> constructor <;> grind [restK, esK]
  · cases hs

theorem tell_o {s s' : St} {acts : List Act} {done : List Ev} {handled : List Note} (h : Tell d acts s done handled) (hs : oStep s = some s') :
    Tell d (acts ++ [.o]) s' done handled := by
  have ho : opens (acts ++ [.o]) = opens acts := by simp [opens_append, opens]
  obtain ⟨h1,h2,h3,h4⟩ := h
  unfold oStep at hs
  split at hs <;> (try unfold closeStep at hs) <;> (repeat' split at hs) <;> simp at hs <;> (try subst hs) <;>
   constructor <;> grind

theorem tell_step {s s' : St} {acts : List Act} {a : Act} {done : List Ev} {handled : List Note} (hc : Ctl s) (h : Tell d acts s done handled)
    (hs : step true d s a = some s') : ∃ done' handled', Tell d (acts ++ [a]) s' done' handled' := by
  cases a with
  | w => exact ⟨_, _, tell_w hc h hs⟩
  | k => exact tell_k hc h hs
  | o => exact ⟨_, _, tell_o h hs⟩
  | opened ok =>
    have ho : opens (acts ++ [.opened ok]) = opens acts ++ [ok] := by simp [opens_append, opens]
    obtain ⟨h1,h2,h3,h4⟩ := h
    simp only [step] at hs
    split at hs
    · rename_i hw
      injection hs with hs; subst hs
      rw [hw] at h4
      obtain ⟨k1, k2, k3⟩ := h4
      obtain ⟨j1, j2, j3⟩ := h3 k2
      exact ⟨done, handled, h1, h2, by simp [ho], by rw [ho, k2, k1, j1]; simp [Story, k3]⟩
    · cases hs
  | tryLock i =>
    have ho : opens (acts ++ [.tryLock i]) = opens acts := by simp [opens_append, opens]
    obtain ⟨h1,h2,h3,h4⟩ := h
    simp only [step] at hs
    split at hs
    · cases hs
    · rename_i b hb
      have hne : s.entered ≠ [] := by intro e; rw [e] at hb; simp at hb
      have hst : s.stream = true := by
        cases hst : s.stream
        · exact absurd (hc.quiet hst).2.2 hne
        · rfl
      obtain ⟨_, hop⟩ := story_stream h4 (hc.inw hst)
      refine ⟨done, handled, ?_⟩
      split at hs
      · injection hs with hs; subst hs; exact ⟨h1, h2, by rw [ho]; exact h3, by rw [ho]; exact h4⟩
      · split at hs
        · injection hs with hs; subst hs; exact ⟨h1, h2, by rw [ho]; exact h3, by rw [ho]; exact h4⟩
        · rename_i hl
          have hk : s.k = .free := by
            cases hk : s.k <;> simp [St.locked, hk] at hl ⊢
          rw [hk] at h1 h2
          injection hs with hs; subst hs
          refine ⟨?_, ?_, by rw [ho]; intro e; exact absurd e hop, by rw [ho]; exact h4⟩
          · simp [restK] at h1 ⊢; rw [h1]
          · simpa [esK] using h2
  | _ =>
    refine ⟨done, handled, ?_⟩
    obtain ⟨h1,h2,h3,h4⟩ := h
    simp only [step] at hs
    (repeat' split at hs) <;> simp at hs <;> (try subst hs) <;>
    constructor <;> grind [Story, opens_append, opens, restK, esK]

theorem tell_init : Tell d [] {} [] [] := by
  constructor <;> simp [restK, recvAll, esK, Story, opens, callbacks]

end Verif.Lemmas.DLife
