import Verif.Spec.Start
/-!
# Making a watch does not end the program (C167)
-/

namespace Verif.Props
open Verif.Model.Start Verif.Spec.Start

/-- C167 in full: whatever a program does, making a watch does not end it. -/
def C167_full : Prop := ∀ (limit : Nat) (as : List Act) (s : St), run limit {} as = some s → s.dead = false

private theorem run_snoc {l : Nat} : ∀ (as : List Act) (s : St) (a : Act),
    run l s (as ++ [a]) = (run l s as).bind (fun t => step l t a) := by
  intro as
  induction as with
  | nil => intro s a; simp only [List.nil_append, run, Option.bind_some]; cases step l s a <;> rfl
  | cons x as ih =>
    intro s a
    simp only [List.cons_append, run]
    cases step l s x with
    | none => rfl
    | some t => exact ih t a

private theorem times_snoc (p : Act → Bool) (as : List Act) (a : Act) : times p (as ++ [a]) = times p as + if p a then 1 else 0 := by
  unfold times
  rw [List.filter_append, List.length_append]
  by_cases h : p a <;> simp [h]

private theorem count_set {x y : Ph} (hxy : x ≠ y) : ∀ (l : List Ph) (i : Nat), l[i]? = some x →
    (l.set i y).count x + 1 = l.count x ∧ (l.set i y).count y = l.count y + 1 ∧ ∀ z, z ≠ x → z ≠ y → (l.set i y).count z = l.count z := by
  intro l
  induction l with
  | nil => intro i h; simp at h
  | cons a l ih =>
    intro i h
    cases i with
    | zero =>
      simp only [List.getElem?_cons_zero, Option.some.injEq] at h
      subst h
      refine ⟨?_, ?_, ?_⟩
      · simp [List.count_cons, Ne.symm hxy]
      · simp [List.count_cons, hxy]
      · intro z h1 h2; simp [List.count_cons, Ne.symm h1, Ne.symm h2]
    | succ i =>
      simp only [List.getElem?_cons_succ] at h
      obtain ⟨h1, h2, h3⟩ := ih i h
      simp only [List.set_cons_succ, List.count_cons]
      exact ⟨by omega, by omega, fun z a b => by rw [h3 z a b]⟩

/-- The state, by what happened. -/
private structure Inv (as : List Act) (s : St) : Prop where
  made : times isMake as = s.watches.count .running + s.watches.count .through + s.watches.count .gone + if s.dead then 1 else 0
  over : times isOver as = s.watches.count .through + s.watches.count .gone
  left : times isGone as = s.watches.count .gone
  own : times (· == .spawn) as = times (· == .join) as + s.others

private theorem inv_step {l : Nat} {as : List Act} {s t : St} {a : Act} (h : Inv as s) (hs : step l s a = some t) : Inv (as ++ [a]) t := by
  obtain ⟨h1, h2, h3, h4⟩ := h
  unfold step at hs
  split at hs
  · cases hs
  rename_i hd
  have hd : s.dead = false := by simpa using hd
  simp only [hd, Bool.false_eq_true, if_false, Nat.add_zero] at h1
  cases a with
  | make mem =>
    simp only at hs
    split at hs <;>
    · simp only [Option.some.injEq] at hs
      subst hs
      constructor <;> simp [times_snoc, isMake, isOver, isGone, hd, List.count_append, List.count_cons] <;> omega
  | over i =>
    simp only at hs
    split at hs
    · rename_i hi
      simp only [Option.some.injEq] at hs
      subst hs
      obtain ⟨g1, g2, g3⟩ := count_set (y := .through) (by decide) _ _ hi
      have g3 := g3 .gone (by decide) (by decide)
      constructor <;> simp [times_snoc, isMake, isOver, isGone, hd] <;> omega
    · cases hs
  | gone i =>
    simp only at hs
    split at hs
    · rename_i hi
      simp only [Option.some.injEq] at hs
      subst hs
      obtain ⟨g1, g2, g3⟩ := count_set (y := .gone) (by decide) _ _ hi
      have g3 := g3 .running (by decide) (by decide)
      constructor <;> simp [times_snoc, isMake, isOver, isGone, hd] <;> omega
    · cases hs
  | spawn =>
    simp only at hs
    split at hs
    · simp only [Option.some.injEq] at hs
      subst hs
      constructor <;> simp [times_snoc, isMake, isOver, isGone, hd] <;> omega
    · cases hs
  | join =>
    simp only at hs
    split at hs
    · simp only [Option.some.injEq] at hs
      subst hs
      constructor <;> simp [times_snoc, isMake, isOver, isGone, hd] <;> omega
    · cases hs

private theorem inv_run {l : Nat} : ∀ (as done : List Act) (s t : St), Inv done s → run l s as = some t → Inv (done ++ as) t := by
  intro as
  induction as with
  | nil => intro done s t h hr; cases hr; simpa using h
  | cons a as ih =>
    intro done s t h hr
    simp only [run] at hr
    split at hr
    · cases hr
    · rename_i s1 h1
      have := ih (done ++ [a]) s1 t (inv_step h h1) hr
      rwa [List.append_assoc, List.singleton_append] at this

private theorem inv_start : Inv [] {} := ⟨rfl, rfl, rfl, rfl⟩

/-- C167, exactly: a program that runs is ended by the next thing that happens if and only if that is the making of a watch while there is no memory for
it or the system permits no further thread: the first one, those of its own, and one for each watch whose worker is not through. -/
theorem C167_exactly (limit : Nat) (as : List Act) (a : Act) (s t : St) (hs : run limit {} as = some s) (hd : s.dead = false)
    (ht : run limit {} (as ++ [a]) = some t) :
    t.dead = true ↔ ∃ mem, a = .make mem ∧ (mem = false ∨ limit ≤ ownThreads as + workers as) := by
  obtain ⟨h1, h2, h3, h4⟩ := inv_run as [] _ _ inv_start hs
  simp only [List.nil_append, hd, Bool.false_eq_true, if_false, Nat.add_zero] at h1 h2 h3 h4
  have hn : threads s = ownThreads as + workers as := by
    unfold threads ownThreads workers; omega
  rw [run_snoc, hs] at ht
  change step limit s a = some t at ht
  unfold step at ht
  rw [hd] at ht
  simp only [Bool.false_eq_true, if_false] at ht
  cases a with
  | make mem =>
    simp only at ht
    split at ht
    · rename_i hc
      rw [Bool.and_eq_true, decide_eq_true_eq, hn] at hc
      simp only [Option.some.injEq] at ht
      subst ht
      simp only [hd, Bool.false_eq_true, false_iff]
      rintro ⟨m, h, hm | hm⟩
      · cases h; rw [hm] at hc; cases hc.1
      · omega
    · rename_i hc
      rw [Bool.and_eq_true, decide_eq_true_eq, hn] at hc
      simp only [Option.some.injEq] at ht
      subst ht
      simp only [true_iff]
      refine ⟨mem, rfl, ?_⟩
      cases mem with
      | false => exact .inl rfl
      | true => exact .inr (by have : ¬ _ := fun h => hc ⟨rfl, h⟩; omega)
  | over i => simp only at ht; split at ht <;> simp only [Option.some.injEq, reduceCtorEq] at ht; subst ht; simp [hd]
  | gone i => simp only at ht; split at ht <;> simp only [Option.some.injEq, reduceCtorEq] at ht; subst ht; simp [hd]
  | spawn => simp only at ht; split at ht <;> simp only [Option.some.injEq, reduceCtorEq] at ht; subst ht; simp [hd]
  | join => simp only at ht; split at ht <;> simp only [Option.some.injEq, reduceCtorEq] at ht; subst ht; simp [hd]

private theorem run_split {l : Nat} {s t : St} : ∀ {as bs : List Act}, run l s (as ++ bs) = some t → ∃ m, run l s as = some m ∧ run l m bs = some t := by
  intro as
  induction as generalizing s with
  | nil => intro bs h; exact ⟨s, rfl, h⟩
  | cons a as ih =>
    intro bs h
    simp only [List.cons_append, run] at h ⊢
    split at h
    · cases h
    · rename_i s1 h1
      obtain ⟨m, g1, g2⟩ := ih h
      exact ⟨m, by simpa only [h1] using g1, g2⟩

/-- C167 (partial: there is memory, and whenever a watch is made the system permits one more thread than the program has of its own and open watches).
However many watches are made in the end: those that are gone do not count. -/
theorem C167_room_partial (limit : Nat) (as : List Act) (s : St) (hr : run limit {} as = some s) (hm : Memory as)
    (hroom : ∀ before mem after, as = before ++ .make mem :: after → ownThreads before + openWatches before < limit) : s.dead = false := by
  have key : ∀ (todo done : List Act) (t : St), as = done ++ todo → run limit {} done = some t → t.dead = false → s.dead = false := by
    intro todo
    induction todo with
    | nil => intro done t he hrun hd; rw [List.append_nil] at he; rw [← he, hr] at hrun; cases hrun; exact hd
    | cons a todo ih =>
      intro done t he hrun hd
      have he' : as = (done ++ [a]) ++ todo := by rw [he]; simp
      obtain ⟨m, g1, _⟩ := run_split (he' ▸ hr)
      refine ih (done ++ [a]) m he' g1 ?_
      cases hmd : m.dead with
      | false => rfl
      | true =>
        obtain ⟨mem, rfl, h⟩ := (C167_exactly limit done a t m hrun hd g1).1 hmd
        have h1 := hroom done mem todo he
        have h2 := hm mem (by rw [he]; simp)
        obtain ⟨i1, i2, i3, i4⟩ := inv_run done [] _ _ inv_start hrun
        simp only [List.nil_append] at i1 i2 i3 i4
        rcases h with h | h
        · rw [h2] at h; cases h
        · unfold openWatches at h1; unfold workers at h; omega
  exact key as [] {} rfl rfl rfl

/-- A program that may have two threads. -/
private def oneByOne : List Act := [.make true, .over 0, .gone 0, .make true, .over 1, .gone 1, .make true, .over 2, .make true]

/-- It makes one watch after another; the last one before the one before it is gone, but when that is through. -/
example : ∃ s, run 2 {} oneByOne = some s ∧ s.dead = false ∧ ownThreads oneByOne + workers oneByOne = 2 := ⟨_, rfl, rfl, rfl⟩

example : ∃ s, run 2 {} (oneByOne.take 7) = some s ∧ s.dead = false ∧ Memory (oneByOne.take 7) ∧
    ∀ before mem after, oneByOne.take 7 = before ++ .make mem :: after → ownThreads before + openWatches before < 2 := by
  have e : ∀ (before : List Act) x after, oneByOne.take 7 = before ++ x :: after → before = (oneByOne.take 7).take before.length ∧ before.length < 7 ∧
      (oneByOne.take 7)[before.length]? = some x := by
    intro before x after h
    refine ⟨by rw [h]; simp, ?_, by rw [h]; simp⟩
    have := congrArg List.length h
    simp [oneByOne] at this
    omega
  refine ⟨_, rfl, rfl, ?_, ?_⟩
  · intro mem h
    simp [oneByOne] at h
    exact h
  · intro before mem after h
    obtain ⟨h1, h2, h3⟩ := e before _ after h
    have : ∀ n < 7, (∃ m, (oneByOne.take 7)[n]? = some (.make m)) → ownThreads ((oneByOne.take 7).take n) + openWatches ((oneByOne.take 7).take n) < 2 := by
      intro n hn
      have : n = 0 ∨ n = 1 ∨ n = 2 ∨ n = 3 ∨ n = 4 ∨ n = 5 ∨ n = 6 := by omega
      rintro ⟨m, hm⟩
      rcases this with rfl | rfl | rfl | rfl | rfl | rfl | rfl <;> simp [oneByOne] at hm <;> decide
    rw [h1]
    exact this _ h2 ⟨mem, h3⟩

/-- C167 as stated is false of the code: with as many threads as the system permits, or without memory, making a watch ends the program. -/
theorem C167_refuted : ¬ C167_full := by
  intro h
  have := h 2 [.make true, .make true] _ rfl
  cases this

example : ∃ s, run 2 {} [.make true, .make true] = some s ∧ s.dead = true := ⟨_, rfl, rfl⟩
example : ∃ s, run 9 {} [.spawn, .make false] = some s ∧ s.dead = true := ⟨_, rfl, rfl⟩

/-- A thread that has ended leaves its room: making one and seeing it end changes nothing, so a watch can be made afterwards where it could before. -/
theorem C167_room_again (limit : Nat) (s : St) (h : s.dead = false) (hr : threads s < limit) : run limit s [.spawn, .join] = some s := by
  cases s
  simp_all [run, step]

end Verif.Props
