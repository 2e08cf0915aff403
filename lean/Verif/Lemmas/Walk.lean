import Verif.Spec.Walk

namespace Verif.Lemmas.Walk
open Verif Verif.Model.Walk Verif.Spec

theorem below_prefix {t : DirTree} {ms : List Str} {ns} (h : Below t (ns ++ ms)) : Below t ns := by
  generalize hx : ns ++ ms = x at h
  induction h generalizing ms with
  | root => simp at hx; rw [hx.1]; exact .root
  | child h1 h2 h3 h4 h5 h6 ih =>
    rcases List.eq_nil_or_concat ms with rfl | ⟨ms', m, rfl⟩
    · simp at hx; rw [hx]; exact .child h1 h2 h3 h4 h5 h6
    · rw [List.concat_eq_append, ← List.append_assoc] at hx
      exact ih (List.append_inj' hx rfl).1

theorem nodup_map_inj {α β} {f : α → β} : ∀ {l : List α}, (l.map f).Nodup → ∀ {a b}, a ∈ l → b ∈ l → f a = f b → a = b := by
  intro l
  induction l with
  | nil => intro _ a b h; cases h
  | cons x l ih =>
    intro h a b ha hb hf
    simp only [List.map_cons, List.nodup_cons] at h
    rcases List.mem_cons.1 ha with rfl | ha' <;> rcases List.mem_cons.1 hb with rfl | hb'
    · rfl
    · exact absurd (hf ▸ List.mem_map_of_mem hb') h.1
    · exact absurd (hf ▸ List.mem_map_of_mem ha') h.1
    · exact ih h.2 ha' hb' hf

theorem below_child {t : DirTree} {ns n} (h : Below t (ns ++ [n])) :
    ∃ des, Below t ns ∧ t.entries ns = some des ∧ ⟨n, true⟩ ∈ des ∧ n ≠ b!"." ∧ n ≠ b!".." ∧ t.searchable ns = true := by
  generalize hx : ns ++ [n] = x at h
  cases h with
  | root => simp at hx
  | child h1 h2 h3 h4 h5 h6 =>
    obtain ⟨a, b⟩ := List.append_inj' hx rfl
    simp at b; subst a; subst b
    exact ⟨_, h1, h2, h3, h4, h5, h6⟩

theorem flat_inj : ∀ {a b : List Str}, (∀ n ∈ a, (47 : UInt8) ∉ n) → (∀ n ∈ b, (47 : UInt8) ∉ n) →
    a.flatMap (fun n => 47 :: n) = b.flatMap (fun n => (47:UInt8) :: n) → a = b := by
  -- components are separated by a byte that occurs in none of them
  have split : ∀ {x y u v : Str}, (47 : UInt8) ∉ x → (47 : UInt8) ∉ y →
      (u = [] ∨ u.head? = some 47) → (v = [] ∨ v.head? = some 47) → x ++ u = y ++ v → x = y ∧ u = v := by
    intro x
    induction x with
    | nil =>
      intro y u v _ hy hu hv h
      cases y with
      | nil => simpa using h
      | cons c y =>
        simp at h
        rcases hu with rfl | hu
        · simp at h
        · rw [h] at hu; simp at hu; simp [hu] at hy
    | cons c x ih =>
      intro y u v hx hy hu hv h
      cases y with
      | nil =>
        simp at h
        rcases hv with rfl | hv
        · simp at h
        · rw [← h] at hv; simp at hv; simp [hv] at hx
      | cons d y =>
        simp at h hx hy
        obtain ⟨rfl, h⟩ := h
        obtain ⟨rfl, rfl⟩ := ih hx.2 hy.2 hu hv h
        exact ⟨rfl, rfl⟩
  intro a
  induction a with
  | nil => intro b _ _ h; cases b <;> simp at h ⊢
  | cons n a ih =>
    intro b ha hb h
    cases b with
    | nil => simp at h
    | cons m b =>
      simp only [List.flatMap_cons, List.cons_append, List.cons.injEq, true_and] at h
      have hd : ∀ l : List Str, l.flatMap (fun n => (47:UInt8) :: n) = [] ∨
          (l.flatMap (fun n => (47:UInt8) :: n)).head? = some 47 := by
        intro l; cases l <;> simp
      obtain ⟨h1, h2⟩ := split (ha n (by simp)) (hb m (by simp)) (hd a) (hd b) h
      rw [h1, ih (fun n hn => ha n (by simp [hn])) (fun n hn => hb n (by simp [hn])) h2]

theorem below_names {w p r t} (sh : Shows w p r t) : ∀ {ns}, Below t ns → ∀ n ∈ ns, n ≠ [] ∧ (47 : UInt8) ∉ n := by
  intro ns h
  induction h with
  | root => simp
  | child h1 h2 h3 _ _ _ ih =>
    intro n hn
    simp at hn
    rcases hn with hn | rfl
    · exact ih n hn
    · exact (sh.names _ _ h2).2 _ h3

theorem canon_inj {w p r t} (sh : Shows w p r t) {a b} (ha : Below t a) (hb : Below t b) (hna : a ≠ []) (hnb : b ≠ [])
    (h : canon r a = canon r b) : a = b := by
  simp only [canon, hna, hnb, if_false] at h
  have := List.append_cancel_left h
  exact flat_inj (fun n hn => (below_names sh ha n hn).2) (fun n hn => (below_names sh hb n hn).2) this

theorem canon_ne_root {w p r t} (sh : Shows w p r t) {a} (ha : Below t a) (hna : a ≠ []) : canon r a ≠ r := by
  simp only [canon, hna, if_false]
  cases a with
  | nil => simp at hna
  | cons n a =>
    intro h
    have hn := (below_names sh ha n (by simp)).1
    have : 0 < n.length := List.length_pos_iff.mpr hn
    split at h
    · rename_i hr; have hl := congrArg List.length h; simp [hr] at hl; exact hn hl.1
    · have hl := congrArg List.length h; simp at hl

theorem shown_inj {w p r t} (sh : Shows w p r t) (fits : Fits p r t) {a b} (ha : Below t a) (hb : Below t b)
    (h : shownPath p r a = shownPath p r b) : a = b := by
  simp only [shownPath] at h
  by_cases h1 : a = [] <;> by_cases h2 : b = []
  · rw [h1, h2]
  · simp only [h1, h2, if_true, if_false] at h
    have := sh.fixed b h2 hb (fits.2 b hb)
    rw [← h, sh.root] at this
    simp at this
    exact absurd (h.symm.trans this.symm) (canon_ne_root sh hb h2)
  · simp only [h1, h2, if_true, if_false] at h
    have := sh.fixed a h1 ha (fits.2 a ha)
    rw [h, sh.root] at this
    simp at this
    exact absurd (h.trans this.symm) (canon_ne_root sh ha h1)
  · simp only [h1, h2, if_false] at h
    exact canon_inj sh ha hb h1 h2 h

theorem visits_append (a b : List Step) : visits (a ++ b) = visits a ++ visits b := by
  induction a with
  | nil => rfl
  | cons s a ih => cases s <;> simp [visits, ih]

/-- What the walk of the sub-tree at `ns` has to deliver. -/
def Good (p r : Str) (t : DirTree) (Q : List Str → Prop) (steps : List Step) : Prop :=
  ∃ rels : List (List Str), visits steps = rels.map (shownPath p r) ∧ rels.Nodup ∧
    ∀ x, x ∈ rels ↔ Q x ∧ Below t x ∧ (t.entries x).isSome = true

theorem entries_goodR {w p r t} (R : List Str → Prop) (sh : Shows w p r t) (fits : Fits p r t) (rec : Str → Option (List Step))
    (ns : List Str) (all : List Dirent) (hns : Below t ns) (hall : t.entries ns = some all)
    (hrec : ∀ n, Below t (ns ++ [n]) → ∃ s, rec (canon r (ns ++ [n])) = some s ∧
      Good p r t (fun x => (ns ++ [n]) <+: x ∧ R x) s) :
    ∀ des : List Dirent, (∀ d ∈ des, d ∈ all) → (des.map Dirent.name).Nodup →
      ∃ s, entries w rec (shownPath p r ns) des = some s ∧
        Good p r t (fun x => (∃ d ∈ des, (ns ++ [d.name]) <+: x) ∧ R x) s := by
  intro des
  induction des with
  | nil => intro _ _; exact ⟨[], rfl, [], rfl, List.nodup_nil, by simp⟩
  | cons de des ih =>
    intro hsub hnd
    simp only [List.map_cons, List.nodup_cons] at hnd
    obtain ⟨s2, e2, rels2, v2, n2, m2⟩ := ih (fun d hd => hsub d (by simp [hd])) hnd.2
    have hde := hsub de (by simp)
    -- an entry that is no child contributes nothing
    have skip : ¬ Below t (ns ++ [de.name]) → Good p r t (fun x => (∃ d ∈ de :: des, (ns ++ [d.name]) <+: x) ∧ R x) s2 := by
      intro hno
      refine ⟨rels2, v2, n2, fun x => ?_⟩
      rw [m2]
      constructor
      · rintro ⟨⟨⟨d, hd, hx⟩, hR⟩, h⟩; exact ⟨⟨⟨d, by simp [hd], hx⟩, hR⟩, h⟩
      · rintro ⟨⟨⟨d, hd, hx⟩, hR⟩, h⟩
        simp at hd
        rcases hd with rfl | hd
        · obtain ⟨z, rfl⟩ := hx
          exact absurd (below_prefix h.1) hno
        · exact ⟨⟨⟨d, hd, hx⟩, hR⟩, h⟩
    unfold entries
    by_cases c1 : de.isDirType = false
    · rw [if_pos c1]
      refine ⟨s2, e2, skip fun hb => ?_⟩
      obtain ⟨des', _, h2, h3, _⟩ := below_child hb
      rw [hall] at h2; simp at h2; subst h2
      -- two entries with the same name
      have hnodup := (sh.names _ _ hall).1
      have : de = ⟨de.name, true⟩ := by
        have := nodup_map_inj hnodup hde h3 rfl
        exact this
      rw [this] at c1; simp at c1
    · rw [if_neg c1]
      have c1' : de = ⟨de.name, true⟩ := by
        cases de; simp at c1; simp [c1]
      by_cases c2 : de.name = b!"."
      · rw [if_pos c2]
        exact ⟨s2, e2, skip fun hb => by obtain ⟨_, _, _, _, h4, _⟩ := below_child hb; exact h4 c2⟩
      · rw [if_neg c2]
        by_cases c3 : de.name = b!".."
        · rw [if_pos c3]
          exact ⟨s2, e2, skip fun hb => by obtain ⟨_, _, _, _, _, h4, _⟩ := below_child hb; exact h4 c3⟩
        · rw [if_neg c3]
          have hcut : joinCut (shownPath p r ns) de.name = shownPath p r ns ++ b!"/" ++ de.name := by
            have := fits.1 ns all de hns hall hde
            unfold joinCut
            apply List.take_of_length_le
            omega
          rw [hcut, sh.resolve ns all de.name hns hall (c1' ▸ hde) c2 c3 (fits.1 ns all de hns hall hde)]
          by_cases c4 : t.searchable ns = true
          · rw [if_pos c4]
            have hb : Below t (ns ++ [de.name]) := .child hns hall (c1' ▸ hde) c2 c3 c4
            obtain ⟨s1, e1, rels1, v1, n1, m1⟩ := hrec de.name hb
            refine ⟨s1 ++ s2, ?_, rels1 ++ rels2, ?_, ?_, ?_⟩
            · simp only [e1, e2]; rfl
            · rw [visits_append, v1, v2, List.map_append]
            · rw [List.nodup_append]
              refine ⟨n1, n2, ?_⟩
              rintro a ha b hb' rfl
              obtain ⟨⟨⟨z, hz⟩, _⟩, _⟩ := (m1 a).1 ha
              obtain ⟨⟨⟨d, hd, z', hz'⟩, _⟩, _⟩ := (m2 a).1 hb'
              rw [← hz'] at hz
              simp at hz
              exact hnd.1 (hz.1 ▸ List.mem_map_of_mem hd)
            · intro x
              rw [List.mem_append, m1, m2]
              constructor
              · rintro (⟨⟨h1, hR⟩, h2⟩ | ⟨⟨⟨d, hd, hx⟩, hR⟩, h2⟩)
                · exact ⟨⟨⟨de, by simp, h1⟩, hR⟩, h2⟩
                · exact ⟨⟨⟨d, by simp [hd], hx⟩, hR⟩, h2⟩
              · rintro ⟨⟨⟨d, hd, hx⟩, hR⟩, h2⟩
                simp at hd
                rcases hd with rfl | hd
                · exact .inl ⟨⟨hx, hR⟩, h2⟩
                · exact .inr ⟨⟨⟨d, hd, hx⟩, hR⟩, h2⟩
          · rw [if_neg c4]
            exact ⟨s2, e2, skip fun hb => by obtain ⟨_, _, _, _, _, _, h4⟩ := below_child hb; exact c4 h4⟩

theorem entries_good {w p r t} (sh : Shows w p r t) (fits : Fits p r t) (rec : Str → Option (List Step))
    (ns : List Str) (all : List Dirent) (hns : Below t ns) (hall : t.entries ns = some all)
    (hrec : ∀ n, Below t (ns ++ [n]) → ∃ s, rec (canon r (ns ++ [n])) = some s ∧
      Good p r t (fun x => (ns ++ [n]) <+: x) s) :
    ∀ des : List Dirent, (∀ d ∈ des, d ∈ all) → (des.map Dirent.name).Nodup →
      ∃ s, entries w rec (shownPath p r ns) des = some s ∧
        Good p r t (fun x => ∃ d ∈ des, (ns ++ [d.name]) <+: x) s := by
  intro des h1 h2
  have := entries_goodR (fun _ => True) sh fits rec ns all hns hall (fun n hb => by simpa using hrec n hb) des h1 h2
  simpa using this

theorem walk_good {w p r t} (sh : Shows w p r t) (fits : Fits p r t) (d : Nat)
    (hd : ∀ ns, Below t ns → ns.length ≤ d) :
    ∀ (k : Nat) (ns : List Str), Below t ns → d < ns.length + k →
      ∃ s, walk w k (shownPath p r ns) = some s ∧ Good p r t (fun x => ns <+: x) s := by
  intro k
  induction k with
  | zero => intro ns hns h; have := hd ns hns; omega
  | succ k ih =>
    intro ns hns h
    unfold walk
    rw [sh.list ns hns]
    cases hall : t.entries ns with
    | none =>
      refine ⟨[], rfl, [], rfl, List.nodup_nil, fun x => ?_⟩
      simp only [List.not_mem_nil, false_iff, not_and]
      rintro ⟨z, rfl⟩ hx
      cases z with
      | nil => simp [hall]
      | cons n z =>
        have : ns ++ n :: z = (ns ++ [n]) ++ z := by simp
        rw [this] at hx
        obtain ⟨_, _, h2, _⟩ := below_child (below_prefix hx)
        simp [hall] at h2
    | some all =>
      obtain ⟨s, e, rels, hv, hn, hm⟩ := entries_good sh fits (walk w k) ns all hns hall
        (fun n hb => by
          have := ih (ns ++ [n]) hb (by simp; omega)
          simpa [shownPath] using this)
        all (fun _ h => h) (sh.names _ _ hall).1
      refine ⟨[.opened (shownPath p r ns), .visit (shownPath p r ns)] ++ s ++ [.closed (shownPath p r ns)], ?_, ns :: rels, ?_, ?_, ?_⟩
      · simp only [e]; rfl
      · simp [visits_append, visits, hv]
      · rw [List.nodup_cons]
        refine ⟨fun hx => ?_, hn⟩
        obtain ⟨⟨dd, _, z, hz⟩, _⟩ := (hm ns).1 hx
        have := congrArg List.length hz
        simp at this
      · intro x
        rw [List.mem_cons, hm]
        constructor
        · rintro (rfl | ⟨⟨dd, hd, hx⟩, h2⟩)
          · exact ⟨List.prefix_refl _, hns, by simp [hall]⟩
          · exact ⟨(List.prefix_append _ _).trans hx, h2⟩
        · rintro ⟨⟨z, rfl⟩, h2, h3⟩
          cases z with
          | nil => left; simp
          | cons n z =>
            right
            have e : ns ++ n :: z = (ns ++ [n]) ++ z := by simp
            rw [e] at h2
            obtain ⟨des', _, h4, h5, _⟩ := below_child (below_prefix h2)
            rw [hall] at h4; simp at h4; subst h4
            exact ⟨⟨⟨n, true⟩, h5, z, e.symm⟩, e ▸ h2, h3⟩

theorem entries_mono {w : World} {rec rec' : Str → Option (List Step)} (hr : ∀ p s, rec p = some s → rec' p = some s)
    (path : Str) : ∀ (des : List Dirent) (s), entries w rec path des = some s → entries w rec' path des = some s := by
  intro des
  induction des with
  | nil => intro s h; exact h
  | cons d des ih =>
    intro s h
    unfold entries at h ⊢
    split
    · rename_i c; rw [if_pos c] at h; exact ih _ h
    · rename_i c; rw [if_neg c] at h
      split
      · rename_i c; rw [if_pos c] at h; exact ih _ h
      · rename_i c; rw [if_neg c] at h
        split
        · rename_i c; rw [if_pos c] at h; exact ih _ h
        · rename_i c; rw [if_neg c] at h
          cases hre : w.realpath (joinCut path d.name) with
          | none => rw [hre] at h; exact ih _ h
          | some real =>
            rw [hre] at h
            simp only [Option.bind_eq_bind, Option.bind_eq_some_iff] at h ⊢
            obtain ⟨a, ha, b, hb, hab⟩ := h
            exact ⟨a, hr _ _ ha, b, ih _ hb, hab⟩

theorem walk_mono (w : World) : ∀ (n : Nat) (p s), walk w n p = some s → walk w (n + 1) p = some s := by
  intro n
  induction n with
  | zero => intro p s h; cases h
  | succ n ih =>
    intro p s h
    rw [walk] at h ⊢
    cases ho : w.opendir p with
    | none => rw [ho] at h; exact h
    | some des =>
      rw [ho] at h
      simp only [Option.bind_eq_bind, Option.bind_eq_some_iff] at h ⊢
      obtain ⟨b, hb, he⟩ := h
      exact ⟨b, entries_mono ih p des b hb, he⟩

/-- Every `opendir` of a finished walk is followed by its `closedir`. -/
theorem walk_count (w : World) : ∀ (n : Nat) (p s), walk w n p = some s →
    ∀ q, s.count (.opened q) = s.count (.closed q) := by
  intro n
  induction n with
  | zero => intro p s h; cases h
  | succ n ih =>
    intro p s h q
    rw [walk] at h
    have hent : ∀ (des : List Dirent) (b), entries w (walk w n) p des = some b →
        b.count (.opened q) = b.count (.closed q) := by
      intro des
      induction des with
      | nil => intro b hb; simp [entries] at hb; subst hb; rfl
      | cons d des ihd =>
        intro b hb
        unfold entries at hb
        split at hb
        · exact ihd _ hb
        · split at hb
          · exact ihd _ hb
          · split at hb
            · exact ihd _ hb
            · split at hb
              · exact ihd _ hb
              · simp only [Option.bind_eq_bind, Option.bind_eq_some_iff] at hb
                obtain ⟨a, ha, c, hc, e⟩ := hb
                simp at e; subst e
                rw [List.count_append, List.count_append, ih _ _ ha q, ihd _ hc]
    cases ho : w.opendir p with
    | none => rw [ho] at h; simp at h; subst h; rfl
    | some des =>
      rw [ho] at h
      simp only [Option.bind_eq_bind, Option.bind_eq_some_iff] at h
      obtain ⟨b, hb, he⟩ := h
      simp at he
      subst he
      have := hent des b hb
      simp [List.count_cons, List.count_append, this]

end Verif.Lemmas.Walk
