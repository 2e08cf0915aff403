import Verif.Lemmas.Times
import Verif.Spec.Inotify
import Verif.Spec.Fanotify
/-!
# Effect times on Linux (C136)
-/

namespace Verif.Props
open Verif Verif.Model Verif.Model.Time Verif.Spec.Time Verif.Lemmas.Time

/-- C136 as one would like it: whatever the watching thread does, on either back end, the callback gets events in the order of
their times. -/
def C136_full : Prop :=
  (∀ (σ : Type) (S : In.Sys σ) (clk : Nat → Int) (rf : Bool) (deeds : List (Deed σ)) (st : In.St σ) (n : Nat) (t : T (In.St σ)),
    Steady clk → inDeeds S clk rf deeds { st := st, tick := n } = .ok t → InOrder t.out) ∧
  (∀ (σ : Type) (S : Fa.Sys σ) (clk : Nat → Int) (deeds : List (Deed σ)) (st : Fa.St σ) (n : Nat) (t : T (Fa.St σ)),
    Steady clk → faDeeds S clk deeds { st := st, tick := n } = .ok t → InOrder t.out)

/-- C136: reading with the clock does what reading without it does: same memory, same answer, same undefined behaviour, and the objects
the callback gets are the events of the back end. -/
theorem C136_same_events {σ} (clk : Nat → Int) (r : In.ReadAns) :
    (∀ (S : In.Sys σ) (rf : Bool) (t : T (In.St σ)),
      (∀ t' res, inRecv S clk rf r t = .ok (t', res) →
        In.doEvRecv S r t.st = .ok (t'.st, res) ∧
        ∃ new, t'.out = t.out ++ new ∧ t'.st.out.map bareEv = t.st.out.map bareEv ++ new.map bare) ∧
      (∀ why, inRecv S clk rf r t = .ub why → In.doEvRecv S r t.st = .ub why)) ∧
    (∀ (S : Fa.Sys σ) (t : T (Fa.St σ)),
      (∀ t' res, faRecv S clk r t = .ok (t', res) →
        Fa.doEvRecv S r t.st = .ok (t'.st, res) ∧
        ∃ new, t'.out = t.out ++ new ∧
          t'.st.out.map (fun p => bareEv p.1) = t.st.out.map (fun p => bareEv p.1) ++ new.map bare) ∧
      (∀ why, faRecv S clk r t = .ub why → Fa.doEvRecv S r t.st = .ub why)) := by
  refine ⟨fun S rf t => ⟨fun t' res h => ⟨?_, (inRecv_step S clk rf r t t' res h).new⟩, fun why h => ?_⟩,
    fun S t => ⟨fun t' res h => ⟨?_, ?_⟩, fun why h => ?_⟩⟩
  · rw [← inRecv_er S clk rf r t, h]; rfl
  · rw [← inRecv_er S clk rf r t, h]; rfl
  · rw [← faRecv_er S clk r t, h]; rfl
  · obtain ⟨new, h1, h2⟩ := (faRecv_step S clk r t t' res h).new
    refine ⟨new, h1, ?_⟩
    simpa [faOut, List.map_map, Function.comp_def] using h2
  · rw [← faRecv_er S clk r t, h]; rfl

/-- C136 (partial: one case is left out): the only events in the wrong order are the warning that a new directory is not watched and,
right after it, the event about the directory (inotify). -/
theorem C136_inotify_partial {σ} (S : In.Sys σ) (clk : Nat → Int) (rf : Bool) (deeds : List (Deed σ)) (st : In.St σ) (n : Nat)
    (t : T (In.St σ)) (hs : Steady clk) (h : inDeeds S clk rf deeds { st := st, tick := n } = .ok t) : InOrderBut t.out :=
  Told.inOrderBut hs (inDeeds_told S clk rf deeds _ t n h (.nil (Nat.le_refl _)))

/-- C136 (partial: the same case is left out), fanotify. -/
theorem C136_fanotify_partial {σ} (S : Fa.Sys σ) (clk : Nat → Int) (deeds : List (Deed σ)) (st : Fa.St σ) (n : Nat)
    (t : T (Fa.St σ)) (hs : Steady clk) (h : faDeeds S clk deeds { st := st, tick := n } = .ok t) : InOrderBut t.out :=
  Told.inOrderBut hs (faDeeds_told S clk deeds _ t n h (.nil (Nat.le_refl _)))

private theorem in_order_of (es : List Event) (h : InOrderBut es)
    (hw : ∀ w ∈ es, ∀ p, w.path ≠ b!"w/sys/not_watched@" ++ p) : InOrder es := by
  unfold InOrder
  rw [List.pairwise_iff_getElem]
  intro i j hi hj hij
  apply Int.not_lt.1
  intro hlt
  obtain ⟨-, hu⟩ := h i j es[i] es[j] hij (by simp [hi]) (by simp [hj]) hlt
  exact hw es[i] (List.getElem_mem hi) _ hu.1

/-- C136 (partial: only while every new directory can be watched): where nothing is announced as not watched, the events come in the order of
their times. -/
theorem C136_in_order_partial {σ} (clk : Nat → Int) (hs : Steady clk) (deeds : List (Deed σ)) (n : Nat) :
    (∀ (S : In.Sys σ) (rf : Bool) (st : In.St σ) (t : T (In.St σ)), inDeeds S clk rf deeds { st := st, tick := n } = .ok t →
      (∀ w ∈ t.out, ∀ p, w.path ≠ b!"w/sys/not_watched@" ++ p) → InOrder t.out) ∧
    (∀ (S : Fa.Sys σ) (st : Fa.St σ) (t : T (Fa.St σ)), faDeeds S clk deeds { st := st, tick := n } = .ok t →
      (∀ w ∈ t.out, ∀ p, w.path ≠ b!"w/sys/not_watched@" ++ p) → InOrder t.out) :=
  ⟨fun S rf st t h => in_order_of _ (C136_inotify_partial S clk rf deeds st n t hs h),
   fun S st t h => in_order_of _ (C136_fanotify_partial S clk deeds st n t hs h)⟩

/-- C136: a time is read while the watching thread works: not before it began, and not after what it did last; an associated event is not
later than its event. -/
theorem C136_when {σ} (clk : Nat → Int) (hs : Steady clk) (deeds : List (Deed σ)) (n : Nat) :
    (∀ (S : In.Sys σ) (rf : Bool) (st : In.St σ) (t : T (In.St σ)), inDeeds S clk rf deeds { st := st, tick := n } = .ok t →
      ∀ e ∈ t.out, clk n ≤ e.time ∧ e.time ≤ clk t.tick ∧ ∀ a, e.assoc = some a → clk n ≤ a.time ∧ a.time ≤ e.time) ∧
    (∀ (S : Fa.Sys σ) (st : Fa.St σ) (t : T (Fa.St σ)), faDeeds S clk deeds { st := st, tick := n } = .ok t →
      ∀ e ∈ t.out, clk n ≤ e.time ∧ e.time ≤ clk t.tick ∧ ∀ a, e.assoc = some a → clk n ≤ a.time ∧ a.time ≤ e.time) := by
  have key : ∀ {l : List Event} {m : Nat}, Told clk n l m →
      ∀ e ∈ l, clk n ≤ e.time ∧ e.time ≤ clk m ∧ ∀ a, e.assoc = some a → clk n ≤ a.time ∧ a.time ≤ e.time := by
    intro l m h e he
    obtain ⟨k, h1, h2, h3, h4⟩ := h.range.2 e he
    rw [h3]
    refine ⟨hs _ _ h1, hs _ _ (by omega), fun a ha => ?_⟩
    obtain ⟨j, h5, h6, h7⟩ := h4 a ha
    rw [h7]; exact ⟨hs _ _ h5, hs _ _ h6⟩
  exact ⟨fun S rf st t h => key (inDeeds_told S clk rf deeds _ t n h (.nil (Nat.le_refl _))),
    fun S st t h => key (faDeeds_told S clk deeds _ t n h (.nil (Nat.le_refl _)))⟩

/-! A life: the live message; a rename and a new directory are read; the directory cannot be watched (it is gone). -/

private def goneIn : In.Sys Nat where
  realpath n _ := (none, n)
  isDir n _ := (true, n)
  addWatch n _ := (3, n)

private def inLife : List (Deed Nat) :=
  [.msg ⟨b!"s/self/live@/r", .create, .watcher, none⟩,
   .read (.data (Spec.batch [{ wd := 1, mask := 0x40#32, cookie := 7#32, name := b!"f", pad := 15 },
                        { wd := 1, mask := 0x80#32, cookie := 7#32, name := b!"g", pad := 15 },
                        { wd := 1, mask := 0x40000100#32, name := b!"d", pad := 15 },
                        { wd := 1, mask := 0x100#32, name := b!"h", pad := 15 }]))]

private def inStart : T (In.St Nat) := { st := { dm := [(1, b!"/r")], sys := 0 }, tick := 0 }

/-- Name, time and the associated event's time. -/
private def shown {α} : Outcome (T α) → List (Str × Int × Option Int)
  | .ok t => t.out.map fun e => (e.path, e.time, e.assoc.map Event.time)
  | .ub _ => []

private def goneFa : Fa.Sys Nat where
  realpath n _ := (none, n)
  isDir n _ := (true, n)
  mark n _ := (true, n)
  openByHandle n _ := ((5, 0), n)
  readlink n _ := (some b!"/r", n)
  rightFirst := true

private def faLife : List (Deed Nat) :=
  [.msg ⟨b!"s/self/live@/r", .create, .watcher, none⟩, .mark b!"/r",
   .read (.data (Spec.fbatch [{ mask := 0x40#64, handle := [2], name := b!"f", pad := 3, move := some 1 },
                        { mask := 0x80#64, handle := [1], name := b!"g", pad := 3, move := some 1 },
                        { mask := 0x40000100#64, handle := [1], name := b!"d", pad := 3 }]))]

private def faStart : T (Fa.St Nat) := { st := { buf := List.replicate 4096 0, sys := 0 }, tick := 0 }

private theorem inLife_shown : shown (inDeeds goneIn (fun n => (n : Int)) false inLife inStart) =
    [(b!"s/self/live@/r", 0, none), (b!"/r/f", 3, some 2), (b!"w/sys/not_watched@/r/d", 5, none), (b!"/r/d", 4, none), (b!"/r/h", 6, none)] := by
  decide +kernel

private theorem faLife_shown : shown (faDeeds goneFa (fun n => (n : Int)) faLife faStart) =
    [(b!"s/self/live@/r", 0, none), (b!"w/sys/not_watched@/r", 1, none), (b!"/r/f", 4, some 2), (b!"w/sys/not_watched@/r/d", 6, none),
     (b!"/r/d", 5, none)] := by
  decide +kernel

private theorem steady_nat : Steady (fun n => (n : Int)) := fun m n h => by simp only; omega

private theorem shown_order {α} {x : Outcome (T α)} {l : List (Str × Int × Option Int)} (h : shown x = l) (hl : l ≠ []) :
    ∃ t, x = .ok t ∧ (InOrder t.out → l.Pairwise (fun a b => a.2.1 ≤ b.2.1)) := by
  cases x with
  | ub w => exact absurd h.symm hl
  | ok t =>
    refine ⟨t, rfl, fun hi => ?_⟩
    rw [← h]
    simp only [shown]
    rw [List.pairwise_map]
    exact hi

/-- C136 fails on both back ends: the warning comes first and has the later time. -/
theorem C136_refuted : ¬ C136_full ∧
    ¬ (∀ (σ : Type) (S : Fa.Sys σ) (clk : Nat → Int) (deeds : List (Deed σ)) (st : Fa.St σ) (n : Nat) (t : T (Fa.St σ)),
      Steady clk → faDeeds S clk deeds { st := st, tick := n } = .ok t → InOrder t.out) := by
  constructor
  · intro h
    obtain ⟨t, h1, h2⟩ := shown_order inLife_shown (by simp)
    have := h2 (h.1 Nat goneIn _ false inLife _ 0 t steady_nat h1)
    revert this; decide
  · intro h
    obtain ⟨t, h1, h2⟩ := shown_order faLife_shown (by simp)
    have := h2 (h Nat goneFa _ faLife _ 0 t steady_nat h1)
    revert this; decide

/-- The hypotheses are met by these lives, with events, a pair and the warning. -/
example : ∃ t, inDeeds goneIn (fun n => (n : Int)) false inLife inStart = .ok t ∧ InOrderBut t.out ∧ t.out.length = 5 := by
  obtain ⟨t, h, -⟩ := shown_order inLife_shown (by simp)
  refine ⟨t, h, C136_inotify_partial _ _ _ _ _ _ t steady_nat h, ?_⟩
  have := inLife_shown
  rw [h] at this
  have := congrArg List.length this
  simpa [shown] using this
example : ∃ t, faDeeds goneFa (fun n => (n : Int)) faLife faStart = .ok t ∧ InOrderBut t.out ∧ t.out.length = 5 := by
  obtain ⟨t, h, -⟩ := shown_order faLife_shown (by simp)
  refine ⟨t, h, C136_fanotify_partial _ _ _ _ _ t steady_nat h, ?_⟩
  have := faLife_shown
  rw [h] at this
  have := congrArg List.length this
  simpa [shown] using this

/-- What other processes do between two deeds counts: a directory that cannot be marked at first can be after they acted. -/
private def lateFa : Fa.Sys Nat := { goneFa with realpath := fun n p => (some p, n), mark := fun n _ => (n = 1, n) }
private def lateIn : In.Sys Nat := { goneIn with realpath := fun n p => (some p, n), addWatch := fun n _ => (if n = 1 then 3 else -1, n) }
private def lateLife : List (Deed Nat) := [.mark b!"/r", .world 1, .mark b!"/r"]

example : shown (faDeeds lateFa (fun n => (n : Int)) lateLife faStart) = [(b!"w/sys/not_watched@/r", 0, none)] ∧
    shown (inDeeds lateIn (fun n => (n : Int)) false lateLife inStart) = [(b!"w/sys/not_watched@/r", 0, none)] := by
  decide +kernel


end Verif.Props
