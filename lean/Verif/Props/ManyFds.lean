import Verif.Props.Walk
import Verif.Spec.ManyFds
/-!
# The descriptors of several watches in one program (C160)
-/

namespace Verif.Props
open Verif Verif.Model Verif.Model.Fds Verif.Spec

private theorem replay_append (a b : List FdStep) : ∀ s, replay s (a ++ b) = (replay s a).bind fun s' => replay s' b := by
  induction a with
  | nil => intro s; rfl
  | cons x a ih =>
    intro s
    cases x with
    | opened fd => simp only [List.cons_append, replay]; exact ih _
    | close fd =>
      simp only [List.cons_append, replay]
      split
      · exact ih _
      · split
        · exact ih _
        · rfl

private theorem mine_append (i : Nat) (a b : FdTrace) : mine i (a ++ b) = mine i a ++ mine i b := by
  induction a with
  | nil => rfl
  | cons x a ih => obtain ⟨j, x⟩ := x; simp only [List.cons_append, mine]; split <;> simp [ih]

private theorem snoc_of {α : Type} {n : Nat} : ∀ {t : List α}, t.length = n + 1 → ∃ s x, t = s ++ [x] := by
  intro t h
  rcases List.eq_nil_or_concat t with rfl | ⟨s, x, e⟩
  · simp at h
  · exact ⟨s, x, by simpa using e⟩

/-- Two entries of a table without doubles that have the same number are the same. -/
private theorem same_entry {tab : List (Nat × Int)} {i j : Nat} {fd : Int} (h : (tab.map (·.2)).Nodup) (h1 : (i, fd) ∈ tab) (h2 : (j, fd) ∈ tab) : i = j := by
  induction tab with
  | nil => cases h1
  | cons e tab ih =>
    simp only [List.map_cons, List.nodup_cons, List.mem_map, not_exists, not_and] at h
    cases h1 with
    | head =>
      cases h2 with
      | head => rfl
      | tail _ h2 => exact (h.1 (j, fd) h2 rfl).elim
    | tail _ h1 =>
      cases h2 with
      | head => exact (h.1 (i, fd) h1 rfl).elim
      | tail _ h2 => exact ih h.2 h1 h2

private theorem table_snoc (t : FdTrace) (x : Nat × FdStep) : table (t ++ [x]) = tableStep (table t) x := by
  simp [table, List.foldl_append]

/-- The descriptors of `i` in the table. -/
private def fdsOf (i : Nat) (tab : List (Nat × Int)) : List Int := (tab.filter fun e => e.1 = i).map (·.2)

private theorem nodup_fdsOf {i : Nat} {tab : List (Nat × Int)} (h : (tab.map (·.2)).Nodup) : (fdsOf i tab).Nodup := by
  unfold fdsOf
  exact h.sublist (List.Sublist.map _ List.filter_sublist)

private theorem mem_fdsOf {i : Nat} {fd : Int} {tab : List (Nat × Int)} : fd ∈ fdsOf i tab ↔ (i, fd) ∈ tab := by
  simp only [fdsOf, List.mem_map, List.mem_filter, decide_eq_true_eq]
  constructor
  · rintro ⟨⟨j, f⟩, ⟨h1, h2⟩, h3⟩; simp only at h2 h3; subst h2; subst h3; exact h1
  · intro h; exact ⟨(i, fd), ⟨h, rfl⟩, rfl⟩

private theorem fdsOf_close (i : Nat) (fd : Int) (tab : List (Nat × Int)) : fdsOf i (tab.filter fun e => e.2 ≠ fd) = (fdsOf i tab).filter (· ≠ fd) := by
  simp only [fdsOf, List.filter_filter, List.filter_map]
  congr 1
  apply List.filter_congr
  intro e _
  simp [Bool.and_comm]

private theorem nonneg_table {t : FdTrace} (hk : Handed t) : ∀ e ∈ table t, 0 ≤ e.2 := by
  have : ∀ n, ∀ s : FdTrace, s.length = n → (∃ r, t = s ++ r) → ∀ e ∈ table s, 0 ≤ e.2 := by
    intro n
    induction n with
    | zero => intro s hs _ e he; simp at hs; subst hs; simp [table] at he
    | succ n ih =>
      intro s hs ⟨r, hr⟩ e he
      obtain ⟨s', x, rfl⟩ := snoc_of hs
      have hp := ih s' (by simp at hs; omega) ⟨x :: r, by simp [hr]⟩
      rw [table_snoc] at he
      obtain ⟨i, x⟩ := x
      cases x with
      | opened fd =>
        simp only [tableStep, List.mem_cons] at he
        rcases he with rfl | he
        · exact (hk s' r i fd (by simp [hr])).1
        · exact hp e he
      | close fd => simp only [tableStep, List.mem_filter] at he; exact hp e he.1
  exact this t.length t rfl ⟨[], by simp⟩

private theorem handed_prefix {a b : FdTrace} (h : Handed (a ++ b)) : Handed a := by
  intro x y i fd e
  exact h x (y ++ b) i fd (by rw [e]; simp)

private theorem careful_prefix {a b : List FdStep} (h : Careful (a ++ b)) : Careful a := by
  intro ha
  apply h
  rw [replay_append, ha]; rfl

/-- The table is what each of them believes to have. -/
private theorem table_inv (n : Nat) : ∀ t : FdTrace, t.length = n → Handed t → (∀ i, Careful (mine i t)) →
    ((table t).map (·.2)).Nodup ∧ (∀ i, replay [] (mine i t) = some (fdsOf i (table t))) ∧ OwnOnly t := by
  induction n with
  | zero =>
    intro t ht _ _
    simp at ht; subst ht
    refine ⟨by simp [table], fun i => rfl, ?_⟩
    intro a b i fd e; simp at e
  | succ n ih =>
    intro t ht hk hc
    obtain ⟨s, x, rfl⟩ := snoc_of ht
    obtain ⟨h1, h2, h3⟩ := ih s (by simp at ht; omega) (handed_prefix hk) fun i => by
      have := hc i; rw [mine_append] at this; exact careful_prefix this
    obtain ⟨j, x⟩ := x
    have own : ∀ fd, x = .close fd → 0 ≤ fd → (j, fd) ∈ table s := by
      intro fd hx h0
      have := hc j
      rw [mine_append] at this
      simp only [Careful, replay_append, h2 j, mine, hx, if_true, Option.bind_some, replay] at this
      rw [if_neg (by omega)] at this
      cases hm : decide (fd ∈ fdsOf j (table s)) with
      | true => exact mem_fdsOf.1 (by simpa using hm)
      | false => rw [if_neg (by simpa using hm)] at this; exact absurd rfl this
    refine ⟨?_, ?_, ?_⟩
    · rw [table_snoc]
      cases x with
      | opened fd =>
        simp only [tableStep, List.map_cons, List.nodup_cons]
        refine ⟨?_, h1⟩
        intro hm
        obtain ⟨e, he, hf⟩ := List.mem_map.1 hm
        exact (hk s [] j fd rfl).2 e he hf
      | close fd =>
        simp only [tableStep]
        exact h1.sublist (List.Sublist.map _ List.filter_sublist)
    · intro i
      rw [mine_append, replay_append, h2 i, table_snoc]
      simp only [Option.bind_some, mine]
      by_cases hji : j = i
      · subst hji
        simp only [if_true]
        cases x with
        | opened fd => simp [replay, tableStep, fdsOf]
        | close fd =>
          simp only [replay, tableStep]
          by_cases h0 : fd < 0
          · rw [if_pos h0]
            congr 1
            rw [fdsOf_close, List.filter_eq_self.2]
            intro f hf
            have := nonneg_table (handed_prefix hk) _ (mem_fdsOf.1 hf)
            simp only at this
            simp; omega
          · rw [if_neg h0, if_pos (mem_fdsOf.2 (own fd rfl (by omega)))]
            congr 1
            rw [fdsOf_close, (nodup_fdsOf h1).erase_eq_filter]
            apply List.filter_congr; intro f _; by_cases e : f = fd <;> simp [e]
      · simp only [if_neg hji, replay]
        congr 1
        cases x with
        | opened fd => simp [tableStep, fdsOf, hji]
        | close fd =>
          simp only [tableStep]
          rw [fdsOf_close, Eq.comm, List.filter_eq_self]
          intro f hf
          have hf' := mem_fdsOf.1 hf
          have hne : f ≠ fd := by
            rintro rfl
            have hnn := nonneg_table (handed_prefix hk) _ hf'
            have hj := own f rfl hnn
            exact hji (same_entry h1 hj hf')
          simpa using hne
    · intro a b i fd e h0
      rcases List.eq_nil_or_concat b with rfl | ⟨b', y, rfl⟩
      · have e' : s ++ [(j, x)] = a ++ [(i, .close fd)] := e
        obtain ⟨rfl, hx⟩ := List.append_inj' e' rfl
        simp only [List.cons.injEq, Prod.mk.injEq, and_true] at hx
        obtain ⟨rfl, rfl⟩ := hx
        exact own fd rfl h0
      · have e' : s ++ [(j, x)] = (a ++ (i, .close fd) :: b') ++ [y] := by rw [e]; simp
        obtain ⟨rfl, _⟩ := List.append_inj' e' rfl
        exact h3 a b' i fd rfl h0

private theorem frame (r : List Int) : ∀ (t : List FdStep) (s s' : List Int), replay s t = some s' → replay (s ++ r) t = some (s' ++ r) := by
  intro t
  induction t with
  | nil => intro s s' h; simp [replay] at h; subst h; rfl
  | cons x t ih =>
    intro s s' h
    cases x with
    | opened fd => exact ih (fd :: s) s' h
    | close fd =>
      simp only [replay] at h ⊢
      split at h
      · rename_i h0; rw [if_pos h0]; exact ih s s' h
      · rename_i h0
        rw [if_neg h0]
        split at h
        · rename_i hm
          rw [if_pos (List.mem_append_left _ hm), List.erase_append_left _ hm]
          exact ih _ s' h
        · cases h

private theorem careful_some {t : List FdStep} (h : Careful t) : ∃ s, replay [] t = some s := by
  cases e : replay [] t with
  | none => exact absurd e h
  | some s => exact ⟨s, rfl⟩

private theorem careful_append {a b : List FdStep} (h1 : Careful a) (h2 : Careful b) : Careful (a ++ b) := by
  obtain ⟨s1, e1⟩ := careful_some h1
  obtain ⟨s2, e2⟩ := careful_some h2
  have := frame s1 b [] s2 e2
  simp only [List.nil_append] at this
  simp [Careful, replay_append, e1, this]

private theorem careful_pathof (x : Int) : Careful (pathofFds x) := by
  unfold Careful pathofFds created
  by_cases h : 0 ≤ x <;> by_cases h' : x ≤ 0 <;> simp [h, h', replay]
  all_goals (try split) <;> simp

private theorem careful_handles (hs : List Int) : Careful (hs.flatMap pathofFds) := by
  induction hs with
  | nil => simp [Careful, replay]
  | cons x hs ih => rw [List.flatMap_cons]; exact careful_append (careful_pathof x) ih

/-- Two descriptors that are open can be closed. -/
private theorem close_two (s : List Int) (a b : Int) (ha : a < 0 ∨ a ∈ s) (hb : b < 0 ∨ b ∈ s.erase a) : replay s [.close a, .close b] ≠ none := by
  simp only [replay]
  by_cases h1 : a < 0
  · rw [if_pos h1]
    by_cases h2 : b < 0
    · rw [if_pos h2]; simp
    · rw [if_neg h2]
      have : b ∈ s := List.mem_of_mem_erase (hb.resolve_left h2)
      rw [if_pos this]; simp
  · rw [if_neg h1, if_pos (ha.resolve_left h1)]
    by_cases h2 : b < 0
    · rw [if_pos h2]; simp
    · rw [if_neg h2, if_pos (hb.resolve_left h2)]; simp

private theorem platform_careful (m : Sys × List FdStep) (handles : List Int) (final : Result) (s : List Int) (h : replay [] m.2 = some s)
    (hke : m.1.ke < 0 ∨ m.1.ke ∈ s) (hep : m.1.ep < 0 ∨ m.1.ep ∈ s.erase m.1.ke) : Careful (platformWatch m handles final).2 := by
  have hh : ∃ s2, replay [] (if m.1.ok.keepsRunning then handles.flatMap pathofFds else []) = some s2 := by
    split
    · exact careful_some (careful_handles handles)
    · exact ⟨[], rfl⟩
  obtain ⟨s2, h2⟩ := hh
  have h3 := frame s _ _ _ h2
  simp only [List.nil_append] at h3
  simp only [Careful, platformWatch, replay_append, h, Option.bind_some, h3]
  apply close_two
  · rcases hke with h | h
    · exact .inl h
    · exact .inr (List.mem_append_right _ h)
  · rcases hep with h | h
    · exact .inl h
    · refine .inr ?_
      by_cases hm : m.1.ke ∈ s2
      · rw [List.erase_append_left _ hm]; exact List.mem_append_right _ (List.mem_of_mem_erase h)
      · rw [List.erase_append_right _ hm]; exact List.mem_append_right _ h

private theorem makeEp_replay (e : EpAns) : (replay [] (makeEp e).2 = some [] ∧ (makeEp e).1 < 0) ∨ (replay [] (makeEp e).2 = some [(makeEp e).1] ∧ 0 ≤ (makeEp e).1) := by
  unfold makeEp created
  by_cases h : 0 ≤ e.create
  · have hn : ¬ e.create < 0 := by omega
    cases h1 : e.ctlFs <;> cases h2 : e.ctlIl <;> simp [h, hn, replay]
  · have hn : e.create < 0 := by omega
    simp [h, hn, replay]

private theorem fa_careful (i : Int) (e : EpAns) (hs : List Int) (f : Result) : Careful (platformWatch (faMake i e) hs f).2 := by
  unfold faMake
  by_cases h : i < 1
  · rw [if_pos h]
    by_cases h0 : 0 ≤ i
    · exact platform_careful _ _ _ [i] (by simp [created, h0, replay]) (.inl (by simp)) (.inl (by simp))
    · exact platform_careful _ _ _ [] (by simp [created, h0, replay]) (.inl (by simp)) (.inl (by simp))
  · rw [if_neg h]
    have h0 : 0 ≤ i := by omega
    have hi : ¬ i < 0 := by omega
    rcases makeEp_replay e with ⟨hr, hn⟩ | ⟨hr, hn⟩
    · have := frame [i] _ _ _ hr
      simp only [List.nil_append] at this
      simp only
      rw [if_pos (by omega)]
      exact platform_careful _ _ _ [] (by simp [created, h0, replay_append, replay, this, hi]) (.inl (by simp)) (.inl (by simp))
    · have := frame [i] _ _ _ hr
      simp only [List.singleton_append, List.nil_append] at this
      simp only
      by_cases h1 : (makeEp e).1 < 1
      · rw [if_pos h1]
        refine platform_careful _ _ _ ([(makeEp e).1, i].erase i) ?_ (.inl (by simp)) (.inl (by simp))
        simp [created, h0, replay_append, replay, this, hi]
      · rw [if_neg h1]
        refine platform_careful _ _ _ [(makeEp e).1, i] ?_ (.inr (by simp)) (.inr ?_)
        · simp [created, h0, replay_append, replay, this]
        · simp only
          by_cases he : (makeEp e).1 = i
          · rw [he]; simp
          · rw [List.mem_erase_of_ne he]; simp

private theorem in_careful (i : Int) (d : Bool) (e : EpAns) (f : Result) : Careful (platformWatch (inMake i d e) [] f).2 := by
  have := C23_inotify_no_leak i d e f
  intro h
  rw [NoLeak, h] at this; cases this

private theorem watch_careful (a : Ans) : Careful (watchFds a).2 := by
  unfold watchFds
  simp only
  cases a.root with
  | false => simp only [Bool.false_eq_true, if_false, if_true, List.nil_append]; exact in_careful _ _ _ _
  | true =>
    simp only [if_true]
    split
    · exact careful_append (fa_careful _ _ _ _) (in_careful _ _ _ _)
    · exact fa_careful _ _ _ _

private theorem obj_end (a : ObjAns) (s : List Int) (h : replay [] (if a.pre then (watchFds a.watch).2 else []) = some s) :
    ∃ s', replay [] (objFds a) = some s' ∧ (s = [] → s' = []) := by
  unfold objFds created
  by_cases h0 : 0 ≤ a.event
  · have hn : ¬ a.event < 0 := by omega
    have := frame [a.event] _ _ _ h
    simp only [List.nil_append] at this
    refine ⟨(s ++ [a.event]).erase a.event, ?_, ?_⟩
    · simp [h0, replay, replay_append, this, hn]
    · rintro rfl; simp
  · have hn : a.event < 0 := by omega
    exact ⟨s, by simp [h0, replay_append, h, replay, hn], id⟩

private theorem obj_careful (a : ObjAns) : Careful (objFds a) := by
  have : ∃ s, replay [] (if a.pre then (watchFds a.watch).2 else []) = some s := by
    split
    · exact careful_some (watch_careful _)
    · exact ⟨[], rfl⟩
  obtain ⟨s, hs⟩ := this
  obtain ⟨s', h, _⟩ := obj_end a s hs
  rw [Careful, h]; simp

private theorem obj_noLeak (a : ObjAns) (h : NeverZero a) : NoLeak (objFds a) := by
  have : replay [] (if a.pre then (watchFds a.watch).2 else []) = some [] := by
    split
    · exact C23_no_leak_partial a.watch h.1 h.2.1 h.2.2
    · rfl
  obtain ⟨s', h1, h2⟩ := obj_end a [] this
  rw [NoLeak, h1, h2 rfl]

private theorem all_careful {t : FdTrace} {obj : Nat → Option ObjAns} (hw : ∀ i a, obj i = some a → mine i t <+: objFds a)
    (ho : ∀ i, obj i = none → Careful (mine i t)) (i : Nat) : Careful (mine i t) := by
  cases h : obj i with
  | none => exact ho i h
  | some a =>
    obtain ⟨r, hr⟩ := hw i a h
    exact careful_prefix (b := r) (by rw [hr]; exact obj_careful a)

/-! ## C160 -/

/-- C160: in a process with any number of `watch` objects and other careful code, at any moment and in any interleaving, no watch closes a descriptor of another one or of the other code, nor one
that is not open. -/
theorem C160_own (t : FdTrace) (obj : Nat → Option ObjAns) (hk : Handed t) (hw : ∀ i a, obj i = some a → mine i t <+: objFds a)
    (ho : ∀ i, obj i = none → Careful (mine i t)) : OwnOnly t :=
  (table_inv t.length t rfl hk (all_careful hw ho)).2.2

/-- C160, the full claim: and a watch that has gone has left nothing open. -/
def C160_full : Prop := ∀ (t : FdTrace) (obj : Nat → Option ObjAns), Handed t → (∀ i a, obj i = some a → mine i t <+: objFds a) →
  (∀ i, obj i = none → Careful (mine i t)) → OwnOnly t ∧ ∀ i a, obj i = some a → mine i t = objFds a → ∀ fd, (i, fd) ∉ table t

/-- C160: a watch that has gone has left nothing open in the process, if it was never given descriptor 0. -/
theorem C160_clean_partial (t : FdTrace) (obj : Nat → Option ObjAns) (hk : Handed t) (hw : ∀ i a, obj i = some a → mine i t <+: objFds a)
    (ho : ∀ i, obj i = none → Careful (mine i t)) (i : Nat) (a : ObjAns) (_hi : obj i = some a) (hz : NeverZero a) (he : mine i t = objFds a) (fd : Int) :
    (i, fd) ∉ table t := by
  intro hm
  have h := (table_inv t.length t rfl hk (all_careful hw ho)).2.1 i
  rw [he, obj_noLeak a hz] at h
  injection h with h
  have := mem_fdsOf.2 hm
  rw [← h] at this
  cases this

private def zeroObj : ObjAns := ⟨3, true, ⟨true, 0, ⟨-1, false, false⟩, [], .complete, 4, false, ⟨5, true, true⟩, .complete⟩⟩
private def goodObj : ObjAns := ⟨3, true, ⟨true, 4, ⟨5, true, true⟩, [7], .complete, 0, false, ⟨0, true, true⟩, .complete⟩⟩
private def otherObj : ObjAns := ⟨6, true, ⟨false, 0, ⟨0, true, true⟩, [], .complete, 8, false, ⟨9, true, true⟩, .complete⟩⟩

/-- Two watches and a careful thread, interleaved. -/
private def busyTrace : FdTrace :=
  [(0, .opened 3), (2, .opened 12), (0, .opened 4), (0, .opened 5), (1, .opened 6), (1, .opened 8), (0, .opened 7), (1, .opened 9), (0, .close 7), (2, .close 12),
   (1, .close 8), (0, .close 4), (1, .close 9), (0, .close 5), (0, .close 3), (1, .close 6)]

/-- `Handed`, computed. -/
private def handedFrom : List (Nat × Int) → FdTrace → Bool
  | _, [] => true
  | tab, (i, .opened fd) :: t => decide (0 ≤ fd) && tab.all (fun e => e.2 != fd) && handedFrom ((i, fd) :: tab) t
  | tab, (i, .close fd) :: t => handedFrom (tableStep tab (i, .close fd)) t

private theorem handed_of (t : FdTrace) : ∀ tab, handedFrom tab t = true → ∀ a b i fd, t = a ++ (i, .opened fd) :: b →
    0 ≤ fd ∧ ∀ e ∈ a.foldl tableStep tab, e.2 ≠ fd := by
  induction t with
  | nil => intro tab _ a b i fd e; simp at e
  | cons x t ih =>
    intro tab h a b i fd e
    obtain ⟨j, x⟩ := x
    cases a with
    | nil =>
      simp only [List.nil_append, List.cons.injEq, Prod.mk.injEq] at e
      obtain ⟨⟨rfl, rfl⟩, rfl⟩ := e
      simp only [handedFrom, Bool.and_eq_true, decide_eq_true_eq, List.all_eq_true, bne_iff_ne] at h
      exact ⟨h.1.1, h.1.2⟩
    | cons y a =>
      simp only [List.cons_append, List.cons.injEq] at e
      obtain ⟨rfl, rfl⟩ := e
      simp only [List.foldl_cons]
      cases x with
      | opened f =>
        simp only [handedFrom, Bool.and_eq_true] at h
        exact ih _ h.2 a b i fd rfl
      | close f =>
        simp only [handedFrom] at h
        exact ih _ h a b i fd rfl

/-- C160 fails: fanotify's descriptor 0 is taken for an error and stays open. -/
theorem C160_refuted : ¬ C160_full := by
  intro h
  have := (h ((objFds zeroObj).map fun x => (0, x)) (fun i => if i = 0 then some zeroObj else none)
    (fun a b i fd e => handed_of _ [] (by decide +kernel) a b i fd e)
    (by
      intro i a hi
      by_cases h0 : i = 0
      · subst h0; injection hi with hi; subst hi; exact ⟨[], by decide +kernel⟩
      · simp [h0] at hi)
    (by
      intro i hi
      have h0 : i ≠ 0 := by rintro rfl; simp at hi
      have : mine i ((objFds zeroObj).map fun x => (0, x)) = [] := by
        generalize objFds zeroObj = l
        induction l with
        | nil => rfl
        | cons x l ih => simp [mine, Ne.symm h0, ih]
      rw [this]; simp [Careful, replay])).2 0 zeroObj rfl (by decide +kernel) 0
  exact this (by decide +kernel)

/-- Two watches that come to their end and a third thread, as `C160_own` and `C160_clean_partial` ask for. -/
example : Handed busyTrace ∧ mine 0 busyTrace = objFds goodObj ∧ mine 1 busyTrace = objFds otherObj ∧ NeverZero goodObj ∧ Careful (mine 2 busyTrace) ∧
    table busyTrace = [] :=
  ⟨fun a b i fd e => handed_of _ [] (by decide +kernel) a b i fd e, by decide +kernel, by decide +kernel, ⟨by decide, by decide, by decide⟩, by unfold Careful; decide +kernel, by decide +kernel⟩

end Verif.Props
