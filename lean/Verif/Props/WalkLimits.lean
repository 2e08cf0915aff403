import Verif.Lemmas.Walk
import Verif.Spec.WalkLimits
/-!
# C144: deep trees
-/

namespace Verif.Props
open Verif Verif.Model.Walk Verif.Spec Verif.Lemmas.Walk

/-- `entries` fails exactly if the call for one of the sub-directories does. -/
private theorem entries_none {w : World} {rec : Str → Option (List Step)} {path : Str} : ∀ {des : List Dirent},
    entries w rec path des = none ↔
      ∃ d ∈ des, d.isDirType = true ∧ d.name ≠ b!"." ∧ d.name ≠ b!".." ∧ ∃ q, w.realpath (joinCut path d.name) = some q ∧ rec q = none := by
  intro des
  induction des with
  | nil => simp [entries]
  | cons d des ih =>
    unfold entries
    by_cases c1 : d.isDirType = false
    · rw [if_pos c1, ih]; simp [c1]
    · rw [if_neg c1]
      by_cases c2 : d.name = b!"."
      · rw [if_pos c2, ih]; simp [c2]
      · rw [if_neg c2]
        by_cases c3 : d.name = b!".."
        · rw [if_pos c3, ih]; simp [c3]
        · rw [if_neg c3]
          simp only [Bool.not_eq_false] at c1
          cases hre : w.realpath (joinCut path d.name) with
          | none => simp only [ih]; simp [hre]
          | some real =>
            simp only
            cases hr : rec real with
            | none => simp [hr, hre, c1, c2, c3]
            | some a =>
              cases he : entries w rec path des with
              | none =>
                have := ih.1 he
                simp only [Option.bind_eq_bind, Option.bind_some, Option.bind_none, true_iff]
                obtain ⟨d', h1, h2⟩ := this
                exact ⟨d', List.mem_cons_of_mem _ h1, h2⟩
              | some b =>
                have := (not_congr ih).1 (by rw [he]; simp)
                simp only [Option.bind_eq_bind, Option.bind_some, reduceCtorEq, false_iff]
                rintro ⟨d', h1, h2, h3, h4, q, h5, h6⟩
                rcases List.mem_cons.1 h1 with rfl | h1
                · rw [hre] at h5; simp at h5; subst h5; rw [hr] at h6; cases h6
                · exact this ⟨d', h1, h2, h3, h4, q, h5, h6⟩

private theorem joinCut_fits {p r : Str} {t : DirTree} (fits : Fits p r t) {ns : List Str} {des : List Dirent} {d : Dirent} (h1 : Below t ns)
    (h2 : t.entries ns = some des) (h3 : d ∈ des) : joinCut (shownPath p r ns) d.name = shownPath p r ns ++ b!"/" ++ d.name := by
  have := fits.1 ns des d h1 h2 h3
  unfold joinCut
  apply List.take_of_length_le
  omega

/-- Where the stack overflows. -/
private theorem walkL_none {w p r t} (sh : Shows w p r t) (fits : Fits p r t) : ∀ (frames free : Nat) (ns : List Str), Below t ns →
    (walkL w frames free (shownPath p r ns) = none ↔ frames ≤ free ∧ ∃ x, ns <+: x ∧ Below t x ∧ x.length = ns.length + frames) := by
  intro frames
  induction frames with
  | zero => intro free ns hb; simp only [walkL, Nat.zero_le, true_and, true_iff]; exact ⟨ns, List.prefix_refl _, hb, rfl⟩
  | succ frames ih =>
    intro free ns hb
    cases free with
    | zero => simp [walkL]
    | succ free =>
      rw [walkL, sh.list ns hb]
      cases hall : t.entries ns with
      | none =>
        simp only [reduceCtorEq, false_iff, not_and]
        rintro _ ⟨x, ⟨z, rfl⟩, hx, hl⟩
        cases z with
        | nil => simp at hl
        | cons n z =>
          have e : ns ++ n :: z = (ns ++ [n]) ++ z := by simp
          rw [e] at hx
          obtain ⟨_, _, h2, _⟩ := below_child (below_prefix hx)
          rw [hall] at h2; cases h2
      | some all =>
        have : ((do
            let body ← entries w (walkL w frames free) (shownPath p r ns) all
            some ([Step.opened (shownPath p r ns), .visit (shownPath p r ns)] ++ body ++ [.closed (shownPath p r ns)]) : Option (List Step)) = none) ↔
            entries w (walkL w frames free) (shownPath p r ns) all = none := by
          cases entries w (walkL w frames free) (shownPath p r ns) all <;> simp
        rw [this, entries_none]
        constructor
        · rintro ⟨d, h1, h2, h3, h4, q, h5, h6⟩
          have hd : d = ⟨d.name, true⟩ := by cases d; simp at h2; simp [h2]
          rw [joinCut_fits fits hb hall h1, sh.resolve ns all d.name hb hall (hd ▸ h1) h3 h4 (fits.1 ns all d hb hall h1)] at h5
          split at h5
          · rename_i hs
            simp at h5; subst h5
            have hb' : Below t (ns ++ [d.name]) := .child hb hall (hd ▸ h1) h3 h4 hs
            have hsp : shownPath p r (ns ++ [d.name]) = canon r (ns ++ [d.name]) := by simp [shownPath]
            rw [← hsp] at h6
            obtain ⟨k1, x, k2, k3, k4⟩ := (ih free _ hb').1 h6
            exact ⟨by omega, x, (List.prefix_append _ _).trans k2, k3, by rw [k4]; simp; omega⟩
          · cases h5
        · rintro ⟨k1, x, ⟨z, rfl⟩, k3, k4⟩
          cases z with
          | nil => simp at k4
          | cons n z =>
            have e : ns ++ n :: z = (ns ++ [n]) ++ z := by simp
            have hb' := below_prefix (e ▸ k3)
            obtain ⟨des, _, g2, g3, g4, g5, g6⟩ := below_child hb'
            rw [hall] at g2; simp at g2; subst g2
            refine ⟨⟨n, true⟩, g3, rfl, g4, g5, canon r (ns ++ [n]), ?_, ?_⟩
            · have hj := joinCut_fits fits hb hall g3
              simp only at hj
              rw [hj, sh.resolve ns all n hb hall g3 g4 g5 (fits.1 ns all _ hb hall g3), if_pos g6]
            · have hsp : shownPath p r (ns ++ [n]) = canon r (ns ++ [n]) := by simp [shownPath]
              rw [← hsp]
              exact (ih free _ hb').2 ⟨by omega, ns ++ n :: z, e ▸ List.prefix_append _ _, k3, by rw [k4]; simp; omega⟩

/-- What is visited. -/
private theorem walkL_good {w p r t} (sh : Shows w p r t) (fits : Fits p r t) : ∀ (frames free : Nat) (ns : List Str) (s : List Step), Below t ns →
    walkL w frames free (shownPath p r ns) = some s → Good p r t (fun x => ns <+: x ∧ x.length < ns.length + free) s := by
  intro frames
  induction frames with
  | zero => intro free ns s _ h; simp [walkL] at h
  | succ frames ih =>
    intro free ns s hns h
    cases free with
    | zero =>
      simp [walkL] at h; subst h
      refine ⟨[], rfl, List.nodup_nil, fun x => ?_⟩
      simp only [List.not_mem_nil, false_iff, not_and, Nat.add_zero]
      rintro ⟨⟨z, rfl⟩, hl⟩
      exfalso
      simp at hl
      omega
    | succ free =>
      rw [walkL, sh.list ns hns] at h
      cases hall : t.entries ns with
      | none =>
        rw [hall] at h; simp at h; subst h
        refine ⟨[], rfl, List.nodup_nil, fun x => ?_⟩
        simp only [List.not_mem_nil, false_iff, not_and]
        rintro ⟨⟨z, rfl⟩, _⟩ hx
        cases z with
        | nil => simp [hall]
        | cons n z =>
          have : ns ++ n :: z = (ns ++ [n]) ++ z := by simp
          rw [this] at hx
          obtain ⟨_, _, h2, _⟩ := below_child (below_prefix hx)
          simp [hall] at h2
      | some all =>
        rw [hall] at h
        simp only [Option.bind_eq_bind, Option.bind_eq_some_iff] at h
        obtain ⟨body, hbody, he⟩ := h
        have hsome : ∀ n, Below t (ns ++ [n]) → ∃ s', walkL w frames free (canon r (ns ++ [n])) = some s' ∧
            Good p r t (fun x => (ns ++ [n]) <+: x ∧ x.length < ns.length + (free + 1)) s' := by
          intro n hb
          have hsp : shownPath p r (ns ++ [n]) = canon r (ns ++ [n]) := by simp [shownPath]
          cases hw : walkL w frames free (canon r (ns ++ [n])) with
          | some s' =>
            refine ⟨s', rfl, ?_⟩
            have := ih free (ns ++ [n]) s' hb (by rw [hsp]; exact hw)
            have e : (ns ++ [n]).length + free = ns.length + (free + 1) := by simp; omega
            rw [e] at this; exact this
          | none =>
            exfalso
            obtain ⟨des, _, g2, g3, g4, g5, g6⟩ := below_child hb
            rw [hall] at g2; simp at g2; subst g2
            have hj := joinCut_fits fits hns hall g3
            simp only at hj
            have : entries w (walkL w frames free) (shownPath p r ns) all = none :=
              entries_none.2 ⟨⟨n, true⟩, g3, rfl, g4, g5, _, by
                rw [hj, sh.resolve ns all n hns hall g3 g4 g5 (fits.1 ns all _ hns hall g3), if_pos g6], hw⟩
            rw [this] at hbody; cases hbody
        obtain ⟨s', e', rels, hv, hn, hm⟩ := entries_goodR (fun x => x.length < ns.length + (free + 1)) sh fits (walkL w frames free) ns all hns hall hsome
          all (fun _ h => h) (sh.names _ _ hall).1
        rw [e'] at hbody; simp at hbody; subst hbody
        simp at he; subst he
        refine ⟨ns :: rels, ?_, ?_, ?_⟩
        · simp [visits_append, visits, hv]
        · rw [List.nodup_cons]
          refine ⟨fun hx => ?_, hn⟩
          obtain ⟨⟨⟨dd, _, z, hz⟩, _⟩, _⟩ := (hm ns).1 hx
          have := congrArg List.length hz
          simp at this
        · intro x
          rw [List.mem_cons, hm]
          constructor
          · rintro (rfl | ⟨⟨⟨dd, hd, hx⟩, hR⟩, h2⟩)
            · exact ⟨⟨List.prefix_refl _, by omega⟩, hns, by simp [hall]⟩
            · exact ⟨⟨(List.prefix_append _ _).trans hx, hR⟩, h2⟩
          · rintro ⟨⟨⟨z, rfl⟩, hR⟩, h2, h3⟩
            cases z with
            | nil => left; simp
            | cons n z =>
              right
              have e : ns ++ n :: z = (ns ++ [n]) ++ z := by simp
              rw [e] at h2
              obtain ⟨des', _, h4, h5, _⟩ := below_child (below_prefix h2)
              rw [hall] at h4; simp at h4; subst h4
              exact ⟨⟨⟨⟨n, true⟩, h5, z, e.symm⟩, hR⟩, e ▸ h2, h3⟩

private theorem prefix_two : ∀ {a b pre : List Step}, pre <+: a ++ b → pre <+: a ∨ ∃ z, z <+: b ∧ pre = a ++ z := by
  intro a
  induction a with
  | nil => intro b pre h; exact .inr ⟨pre, h, rfl⟩
  | cons x a ih =>
    intro b pre h
    cases pre with
    | nil => exact .inl List.nil_prefix
    | cons y pre =>
      obtain ⟨e, h2⟩ := List.cons_prefix_cons.1 h
      subst e
      rcases ih h2 with h | ⟨z, hz, e⟩
      · exact .inl (List.cons_prefix_cons.2 ⟨rfl, h⟩)
      · exact .inr ⟨z, hz, by rw [e]; rfl⟩

/-! ## C144 -/

/-- The full claim: a process with the usual limits watches every tree whose paths fit, whatever its depth. -/
def C144_full : Prop := ∀ (w : World) (p r : Str) (t : DirTree), Shows w p r t → Fits p r t →
  ∃ steps, walkL w (usualStack / frameMin) usualFds p = some steps ∧ VisitsAll p r t steps

/-- C144 (partial: the exact condition, for every stack and number of descriptors): the stack overflows exactly if there is a directory as deep as
the stack has room for calls, and descriptors for the directories above it. -/
theorem C144_overflow_partial (w : World) (p r : Str) (t : DirTree) (sh : Shows w p r t) (fits : Fits p r t) (frames free : Nat) :
    walkL w frames free p = none ↔ frames ≤ free ∧ ∃ ns, Below t ns ∧ ns.length = frames := by
  have := walkL_none sh fits frames free [] .root
  simpa [shownPath] using this

/-- C144 (partial: the exact result): if it does not overflow, exactly the directories are visited (each once) that are less deep than
there are descriptors; the others are passed over, and nobody is told. -/
theorem C144_exact_partial (w : World) (p r : Str) (t : DirTree) (sh : Shows w p r t) (fits : Fits p r t) (frames free : Nat) (steps : List Step)
    (h : walkL w frames free p = some steps) :
    (visits steps).Nodup ∧
    ∀ q, q ∈ visits steps ↔ ∃ ns, Below t ns ∧ (t.entries ns).isSome = true ∧ ns.length < free ∧ q = shownPath p r ns := by
  obtain ⟨rels, hv, hn, hm⟩ := walkL_good sh fits frames free [] steps .root (by simpa [shownPath] using h)
  constructor
  · rw [hv]
    have : ∀ l : List (List Str), (∀ x ∈ l, Below t x) → l.Nodup → (l.map (shownPath p r)).Nodup := by
      intro l
      induction l with
      | nil => intro _ _; exact List.nodup_nil
      | cons a l ih =>
        intro h1 h2
        rw [List.nodup_cons] at h2
        rw [List.map_cons, List.nodup_cons]
        refine ⟨fun hx => ?_, ih (fun x hx => h1 x (by simp [hx])) h2.2⟩
        obtain ⟨b, hb, e⟩ := List.mem_map.1 hx
        have := shown_inj sh fits (h1 b (by simp [hb])) (h1 a (by simp)) e
        exact h2.1 (this ▸ hb)
    exact this rels (fun x hx => ((hm x).1 hx).2.1) hn
  · intro q
    rw [hv, List.mem_map]
    constructor
    · rintro ⟨ns, hx, rfl⟩
      obtain ⟨⟨_, h1⟩, h2, h3⟩ := (hm ns).1 hx
      exact ⟨ns, h2, h3, by simpa using h1, rfl⟩
    · rintro ⟨ns, h1, h2, h3, rfl⟩
      exact ⟨ns, (hm ns).2 ⟨⟨List.nil_prefix, by simpa using h3⟩, h1, h2⟩, rfl⟩

/-- A path that fits has at most 2047 parts. -/
private theorem depth_le {w p r t} (sh : Shows w p r t) (fits : Fits p r t) {ns : List Str} (hb : Below t ns) : ns.length ≤ 2047 := by
  have h1 := fits.2 ns hb
  have h2 := below_names sh hb
  have : ∀ l : List Str, (∀ n ∈ l, n ≠ [] ∧ (47 : UInt8) ∉ n) → 2 * l.length ≤ (l.flatMap (fun n => (47 : UInt8) :: n)).length := by
    intro l
    induction l with
    | nil => intro _; simp
    | cons n l ih =>
      intro h
      have h1 := ih (fun m hm => h m (by simp [hm]))
      have h2 : 0 < n.length := List.length_pos_iff.mpr (h n (by simp)).1
      simp only [List.flatMap_cons, List.length_append, List.length_cons]
      omega
  have h3 := this ns h2
  unfold canon at h1
  split at h1
  · rename_i e; simp [e]
  · simp only [List.length_append, PATH_MAX] at h1
    omega

/-- C144 (partial: with enough of both): 2048 free descriptors and room for 2048 calls (16 MiB of buffers) are enough for every tree whose paths fit. -/
theorem C144_enough_partial (w : World) (p r : Str) (t : DirTree) (sh : Shows w p r t) (fits : Fits p r t) (frames free : Nat)
    (h1 : 2048 ≤ frames) (h2 : 2048 ≤ free) : ∃ steps, walkL w frames free p = some steps ∧ VisitsAll p r t steps := by
  cases hw : walkL w frames free p with
  | none =>
    obtain ⟨_, ns, hb, hl⟩ := (C144_overflow_partial w p r t sh fits frames free).1 hw
    have := depth_le sh fits hb
    omega
  | some steps =>
    obtain ⟨k1, k2⟩ := C144_exact_partial w p r t sh fits frames free steps hw
    refine ⟨steps, rfl, k1, fun q => ?_⟩
    rw [k2]
    constructor
    · rintro ⟨ns, j1, j2, _, j3⟩; exact ⟨ns, j1, j2, j3⟩
    · rintro ⟨ns, j1, j2, j3⟩
      have := depth_le sh fits j1
      exact ⟨ns, j1, j2, by omega, j3⟩

/-- Without limits it is the walk of C24. -/
theorem C144_is_the_walk (w : World) : ∀ (frames free : Nat) (p : Str), frames ≤ free → walkL w frames free p = walk w frames p := by
  intro frames
  induction frames with
  | zero => intro free p _; rfl
  | succ frames ih =>
    intro free p h
    cases free with
    | zero => omega
    | succ free =>
      have : walkL w frames free = walk w frames := funext fun q => ih free q (by omega)
      simp only [walkL, walk, this]
      cases w.opendir p <;> rfl

/-- C144 (proved for every world): at no time are more directory streams open than there were free descriptors, or calls on the stack. -/
theorem C144_open_streams (w : World) : ∀ (frames free : Nat) (p : Str) (steps : List Step), walkL w frames free p = some steps →
    openNow steps = 0 ∧ ∀ pre, pre <+: steps → 0 ≤ openNow pre ∧ openNow pre ≤ free ∧ openNow pre ≤ frames := by
  have app : ∀ a b : List Step, openNow (a ++ b) = openNow a + openNow b := by
    intro a b
    induction a with
    | nil => simp [openNow]
    | cons s a ih => cases s <;> simp only [List.cons_append, openNow, ih] <;> omega
  -- a prefix of two pieces
  have pre2 : ∀ {m : Int} {a b : List Step}, openNow a = 0 → (∀ pre, pre <+: a → 0 ≤ openNow pre ∧ openNow pre ≤ m) →
      (∀ pre, pre <+: b → 0 ≤ openNow pre ∧ openNow pre ≤ m) → ∀ pre, pre <+: a ++ b → 0 ≤ openNow pre ∧ openNow pre ≤ m := by
    intro m a b h0 ha hb pre hp
    rcases prefix_two hp with h | ⟨z, hz, rfl⟩
    · exact ha pre h
    · rw [app, h0]; have := hb z hz; omega
  intro frames
  induction frames with
  | zero => intro free p steps h; simp [walkL] at h
  | succ frames ih =>
    intro free p steps h
    cases free with
    | zero =>
      simp [walkL] at h; subst h
      refine ⟨rfl, fun pre hp => ?_⟩
      have : pre = [] := List.prefix_nil.1 hp
      subst this; simp [openNow]; omega
    | succ free =>
      rw [walkL] at h
      cases ho : w.opendir p with
      | none =>
        rw [ho] at h; simp at h; subst h
        refine ⟨rfl, fun pre hp => ?_⟩
        have : pre = [] := List.prefix_nil.1 hp
        subst this; simp [openNow]; omega
      | some des =>
        rw [ho] at h
        simp only [Option.bind_eq_bind, Option.bind_eq_some_iff] at h
        obtain ⟨body, hb, he⟩ := h
        have hent : ∀ (des : List Dirent) (b), entries w (walkL w frames free) p des = some b →
            openNow b = 0 ∧ ∀ pre, pre <+: b → 0 ≤ openNow pre ∧ openNow pre ≤ min (free : Int) frames := by
          intro des
          induction des with
          | nil =>
            intro b hb; simp [entries] at hb; subst hb
            refine ⟨rfl, fun pre hp => ?_⟩
            have : pre = [] := List.prefix_nil.1 hp
            subst this; simp [openNow]; omega
          | cons d des ihd =>
            intro b hb
            unfold entries at hb
            split at hb
            · exact ihd _ hb
            · split at hb
              · exact ihd _ hb
              · split at hb
                · exact ihd _ hb
                · split at hb
                  · exact ihd _ hb
                  · simp only [Option.bind_eq_bind, Option.bind_eq_some_iff] at hb
                    obtain ⟨a, ha, c, hc, e⟩ := hb
                    simp at e; subst e
                    obtain ⟨i1, i2⟩ := ih _ _ _ ha
                    obtain ⟨j1, j2⟩ := ihd _ hc
                    refine ⟨by rw [app, i1, j1]; rfl, pre2 i1 (fun pre hp => ?_) j2⟩
                    have := i2 pre hp; omega
        obtain ⟨k1, k2⟩ := hent des body hb
        simp at he; subst he
        refine ⟨by simp only [openNow, app, k1]; rfl, fun pre hp => ?_⟩
        cases pre with
        | nil => simp [openNow]; omega
        | cons x pre =>
          obtain ⟨e1, hp⟩ := List.cons_prefix_cons.1 hp
          rw [e1]
          cases pre with
          | nil => simp [openNow]; omega
          | cons x pre =>
            obtain ⟨e2, hp⟩ := List.cons_prefix_cons.1 hp
            rw [e2]
            rcases prefix_two hp with h | ⟨z, hz, rfl⟩
            · have := k2 pre h; simp only [openNow]; omega
            · simp only [openNow, app, k1]
              cases z with
              | nil => simp [openNow]; omega
              | cons y z =>
                obtain ⟨e3, hz⟩ := List.cons_prefix_cons.1 hz
                rw [e3]
                have : z = [] := List.prefix_nil.1 hz
                subst this; simp [openNow]; omega

/-! ### A chain of directories, `/r/a/a/a/...` -/

private def link (k : Nat) : List Str := List.replicate k b!"a"

/-- `N` directories below `/r`, one in the other. -/
private def chainEntries (N : Nat) (ns : List Str) : Option (List Dirent) :=
  if ns = link ns.length ∧ ns.length ≤ N then some (if ns.length < N then [⟨b!"a", true⟩] else []) else none
private def chainTree (N : Nat) : DirTree := { entries := chainEntries N, searchable := fun _ => true }
private def chainWorld (N : Nat) : World where
  opendir q := if q = canon b!"/r" (link ((q.length - 2) / 2)) then chainEntries N (link ((q.length - 2) / 2)) else none
  realpath q := if q = canon b!"/r" (link ((q.length - 2) / 2)) ∧ (q.length - 2) / 2 ≤ N then some q else none

private theorem link_len (k : Nat) : (link k).length = k := List.length_replicate

private theorem chain_canon (k : Nat) : (canon b!"/r" (link k)).length = 2 + 2 * k := by
  unfold canon
  split
  · rename_i h; have := congrArg List.length h; rw [link_len] at this; simp at this; simp [this]
  · have : ∀ k, ((link k).flatMap (fun n => (47 : UInt8) :: n)).length = 2 * k := by
      intro k
      induction k with
      | zero => rfl
      | succ k ih => simp only [link, List.replicate_succ, List.flatMap_cons, List.length_append] at ih ⊢; rw [ih]; simp; omega
    rw [List.length_append, this]
    rfl

private theorem chain_back (k : Nat) : ((canon b!"/r" (link k)).length - 2) / 2 = k := by rw [chain_canon]; omega

private theorem chain_below {N : Nat} {ns : List Str} (h : Below (chainTree N) ns) : ns = link ns.length ∧ ns.length ≤ N := by
  induction h with
  | root => exact ⟨rfl, Nat.zero_le _⟩
  | @child ns des n h1 h2 h3 _ _ _ ih =>
    simp only [chainTree, chainEntries] at h2
    rw [if_pos ih] at h2
    simp only [Option.some.injEq] at h2
    split at h2
    · rename_i hl
      subst h2
      simp only [List.mem_singleton, Dirent.mk.injEq, and_true] at h3
      subst h3
      refine ⟨?_, by simp; omega⟩
      rw [List.length_append, ih.1, link_len]
      simp [link, List.replicate_succ']
    · subst h2; cases h3

private theorem chain_shown (ns : List Str) : shownPath b!"/r" b!"/r" ns = canon b!"/r" ns := by
  unfold shownPath canon
  split <;> rfl

private theorem chain_deep {N : Nat} : ∀ k, k ≤ N → Below (chainTree N) (link k) := by
  intro k
  induction k with
  | zero => intro _; exact .root
  | succ k ih =>
    intro h
    have e : link (k + 1) = link k ++ [b!"a"] := by simp [link, List.replicate_succ']
    rw [e]
    refine .child (ih (by omega)) (des := [⟨b!"a", true⟩]) ?_ (by simp) (by simp) (by simp) rfl
    simp only [chainTree, chainEntries, link_len, true_and]
    rw [if_pos (by omega), if_pos (by omega)]

private theorem chain_next (k : Nat) : canon b!"/r" (link k) ++ b!"/" ++ b!"a" = canon b!"/r" (link (k + 1)) := by
  have e : link (k + 1) = link k ++ [b!"a"] := by simp [link, List.replicate_succ']
  have hne : link (k + 1) ≠ [] := by rw [e]; simp
  unfold canon
  rw [if_neg hne, e]
  split
  · rename_i h; simp [h]
  · simp

private theorem chain_real {N k : Nat} (h : k ≤ N) : (chainWorld N).realpath (canon b!"/r" (link k)) = some (canon b!"/r" (link k)) := by
  simp only [chainWorld, chain_back, true_and, if_pos h]

private theorem chain_shows (N : Nat) : Shows (chainWorld N) b!"/r" b!"/r" (chainTree N) where
  root := chain_real (k := 0) (Nat.zero_le _)
  list := by
    intro ns h
    obtain ⟨h1, h2⟩ := chain_below h
    rw [chain_shown, h1]
    simp only [chainWorld, chain_back, if_true, chainTree]
  fixed := by
    intro ns _ h _
    obtain ⟨h1, h2⟩ := chain_below h
    rw [h1]; exact chain_real h2
  resolve := by
    intro ns des n h1 h2 h3 _ _ _
    obtain ⟨k1, k2⟩ := chain_below h1
    simp only [chainTree, chainEntries] at h2
    rw [if_pos ⟨k1, k2⟩] at h2
    simp only [Option.some.injEq] at h2
    split at h2
    · rename_i hl
      subst h2
      simp only [List.mem_singleton, Dirent.mk.injEq, and_true] at h3
      subst h3
      rw [chain_shown, k1, chain_next]
      have e : link ns.length ++ [b!"a"] = link (ns.length + 1) := by simp [link, List.replicate_succ']
      rw [e, chain_real (by omega)]
      rfl
    · subst h2; cases h3
  names := by
    intro ns des h
    simp only [chainTree, chainEntries] at h
    split at h
    · simp only [Option.some.injEq] at h
      split at h <;> subst h <;> decide
    · cases h
  rootNonempty := by simp

private theorem chain_fits {N : Nat} (hN : N ≤ 2000) : Fits b!"/r" b!"/r" (chainTree N) := by
  constructor
  · intro ns des d h1 h2 h3
    obtain ⟨k1, k2⟩ := chain_below h1
    simp only [chainTree, chainEntries] at h2
    rw [if_pos ⟨k1, k2⟩] at h2
    simp only [Option.some.injEq] at h2
    split at h2
    · subst h2
      simp only [List.mem_singleton] at h3
      subst h3
      rw [chain_shown, k1, chain_next, chain_canon]
      simp only [PATH_MAX]; omega
    · subst h2; cases h3
  · intro ns h
    obtain ⟨k1, k2⟩ := chain_below h
    rw [k1, chain_canon]
    simp only [PATH_MAX]; omega

/-- A chain of 1100 directories (its longest path has 2202 bytes) overflows the usual stack, if the process has the usual number of
descriptors free. -/
theorem C144_refuted : ¬ C144_full := fun h => by
  obtain ⟨steps, h1, _⟩ := h _ _ _ _ (chain_shows 1100) (chain_fits (by omega))
  have : walkL (chainWorld 1100) (usualStack / frameMin) usualFds b!"/r" = none :=
    (C144_overflow_partial _ _ _ _ (chain_shows 1100) (chain_fits (by omega)) _ _).2
      ⟨by decide, link 1024, chain_deep 1024 (by omega), by rw [link_len]; decide⟩
  rw [this] at h1; cases h1

/-- A process with 1000 free descriptors does not crash, but the hundred deepest directories are not watched. -/
theorem C144_silent : ∃ steps, walkL (chainWorld 1100) (usualStack / frameMin) 1000 b!"/r" = some steps ∧
    ∀ k, canon b!"/r" (link k) ∈ visits steps ↔ k < 1000 := by
  cases h : walkL (chainWorld 1100) (usualStack / frameMin) 1000 b!"/r" with
  | none =>
    have := ((C144_overflow_partial _ _ _ _ (chain_shows 1100) (chain_fits (by omega)) _ _).1 h).1
    simp [usualStack, frameMin, PATH_MAX] at this
  | some steps =>
    refine ⟨steps, rfl, fun k => ?_⟩
    rw [(C144_exact_partial _ _ _ _ (chain_shows 1100) (chain_fits (by omega)) _ _ _ h).2]
    constructor
    · rintro ⟨ns, h1, _, h3, h4⟩
      obtain ⟨k1, _⟩ := chain_below h1
      rw [chain_shown, k1] at h4
      have := congrArg List.length h4
      rw [chain_canon, chain_canon] at this
      omega
    · intro hk
      refine ⟨link k, chain_deep k (by omega), ?_, by rw [link_len]; exact hk, (chain_shown _).symm⟩
      simp only [chainTree, chainEntries, link_len, true_and]
      rw [if_pos (by omega)]; rfl

example : Shows (chainWorld 2000) b!"/r" b!"/r" (chainTree 2000) ∧ Fits b!"/r" b!"/r" (chainTree 2000) ∧
    ∃ ns, Below (chainTree 2000) ns ∧ ns.length = 2000 := ⟨chain_shows _, chain_fits (by omega), link 2000, chain_deep _ (by omega), link_len _⟩

end Verif.Props
