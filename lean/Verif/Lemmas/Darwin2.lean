import Verif.Lemmas.Darwin
/-! Lemmas about the Darwin back end: events of one notification, schedules. -/
namespace Verif.Lemmas.Darwin
open Verif Verif.Model Verif.Model.Darwin Verif.Spec Verif.Spec.Darwin Verif.Lemmas

theorem alternates_last : ∀ (l : List Bool) (b : Bool), AlternatesFrom b l → l ≠ [] →
    l.getLast? = some (if l.length % 2 = 1 then b else !b) := by
  intro l
  induction l with
  | nil => intro _ _ h; exact absurd rfl h
  | cons x l ih =>
    intro b h _
    cases l with
    | nil => simp [h.1]
    | cons y l =>
      rw [List.getLast?_cons_cons, ih (!b) h.2 (by simp)]
      simp only [List.length_cons]
      by_cases hl : l.length % 2 = 0
      · rw [if_pos (by omega), if_neg (by omega)]
      · rw [if_neg (by omega), if_pos (by omega)]; simp

/-- A path is remembered exactly when the report so far says it was created. -/
theorem known_iff {p : Str} {c : Ctx} (h : Life p c) : KnownCreated p c.out ↔ p ∈ c.seen := by
  rw [← h.2]
  unfold KnownCreated
  by_cases hl : lifeOf p c.out = []
  · rw [hl]; simp
  · rw [alternates_last _ _ h.1 hl]
    by_cases h2 : (lifeOf p c.out).length % 2 = 1
    · simp [h2]
    · simp [h2]

theorem ptype_told (n : Note) : ptypeOf n.flags = typeTold n := by
  unfold ptypeOf typeTold bit
  rw [d_file, d_dir, d_sym, d_hard]
  simp only [Bool.or_eq_true]

theorem unrec_iff (n : Note) : anyBit n.flags effectAny = false ↔ Unrecognised n := by
  rw [d_any]
  unfold Unrecognised bit
  simp only [Bool.or_eq_false_iff]
  constructor
  · rintro ⟨⟨⟨h8, h9⟩, ⟨⟨⟨h12, h14⟩, h15⟩, h13⟩, h10⟩, h11⟩ k hk hk'
    have : k = 8 ∨ k = 9 ∨ k = 10 ∨ k = 11 ∨ k = 12 ∨ k = 13 ∨ k = 14 ∨ k = 15 := by omega
    rcases this with rfl | rfl | rfl | rfl | rfl | rfl | rfl | rfl <;> assumption
  · intro h
    exact ⟨⟨⟨h 8 (by omega) (by omega), h 9 (by omega) (by omega)⟩, ⟨⟨⟨h 12 (by omega) (by omega), h 14 (by omega) (by omega)⟩,
      h 15 (by omega) (by omega)⟩, h 13 (by omega) (by omega)⟩, h 10 (by omega) (by omega)⟩, h 11 (by omega) (by omega)⟩

theorem modified_iff (n : Note) : anyBit n.flags effectModify = true ↔ Modified n := by
  rw [d_modify]
  unfold Modified bit
  simp only [Bool.or_eq_true]
  constructor
  · rintro (((h | h) | h) | h) <;> simp [h]
  · rintro (h | h | h | h) <;> simp [h]

open Classical in
/-- The events of one notification. -/
theorem one_events (c : Ctx) (n : Note) (hu : ¬ Unrecognised n) :
    ∃ r : List Ev, (recvOne c n).out = c.out ++
      ((if bit n 8 = true ∧ n.path ∉ c.seen then [⟨n.path, .create, typeTold n, none⟩] else []) ++
       (if bit n 9 = true ∧ (n.path ∈ c.seen ∨ bit n 8 = true) then [⟨n.path, .destroy, typeTold n, none⟩] else []) ++
       (if Modified n then [⟨n.path, .modify, typeTold n, none⟩] else []) ++ r) ∧
      (r = [] ∨ (bit n 11 = true ∧ r = [⟨c.last, .rename, typeTold n, some ⟨n.path, .rename, typeTold n⟩⟩])) := by
  have hany : anyBit n.flags effectAny = true := by
    cases h : anyBit n.flags effectAny with
    | true => rfl
    | false => exact absurd ((unrec_iff n).1 h) hu
  unfold recvOne
  simp only [hany, Bool.not_true, Bool.false_eq_true, if_false, ptype_told]
  -- creation
  have e1 : (onCreate c n.path n.flags (typeTold n)).out = c.out ++
      (if bit n 8 = true ∧ n.path ∉ c.seen then [⟨n.path, .create, typeTold n, none⟩] else []) ∧
      (n.path ∈ (onCreate c n.path n.flags (typeTold n)).seen ↔ n.path ∈ c.seen ∨ bit n 8 = true) := by
    unfold onCreate
    rw [d_create]
    unfold bit
    cases h8 : n.flags.getLsbD 8 with
    | false => simp
    | true =>
      by_cases hs : n.path ∈ c.seen
      · simp [hs]
      · simp [hs, Ctx.send]
  have e2 : ∀ d : Ctx, (onRemove d n.path n.flags (typeTold n)).out = d.out ++
      (if bit n 9 = true ∧ n.path ∈ d.seen then [⟨n.path, .destroy, typeTold n, none⟩] else []) := by
    intro d
    unfold onRemove
    rw [d_remove]
    unfold bit
    cases h9 : n.flags.getLsbD 9 with
    | false => simp
    | true =>
      by_cases hs : n.path ∈ d.seen
      · simp [hs, Ctx.send]
      · simp [hs]
  have e3 : ∀ d : Ctx, (onModify d n.path n.flags (typeTold n)).out = d.out ++
      (if Modified n then [⟨n.path, .modify, typeTold n, none⟩] else []) := by
    intro d
    unfold onModify
    by_cases hm : Modified n
    · rw [if_pos hm, if_pos ((modified_iff n).2 hm)]; rfl
    · rw [if_neg hm, if_neg (mt (modified_iff n).1 hm)]; simp
  have el : (onModify (onRemove (onCreate c n.path n.flags (typeTold n)) n.path n.flags (typeTold n)) n.path n.flags (typeTold n)).last = c.last :=
    ((modify_last _ _ _ _).1.trans (remove_last _ _ _ _).1).trans (create_last _ _ _ _).1
  have e4 : ∀ d : Ctx, ∃ r, (onRename d n.path n.flags (typeTold n) n.missing).out = d.out ++ r ∧
      (r = [] ∨ (bit n 11 = true ∧ r = [⟨d.last, .rename, typeTold n, some ⟨n.path, .rename, typeTold n⟩⟩])) := by
    intro d
    unfold onRename
    rw [d_rename]
    unfold bit
    cases h11 : n.flags.getLsbD 11 with
    | false => exact ⟨[], by simp, .inl rfl⟩
    | true =>
      simp only [if_true]
      split
      · exact ⟨_, rfl, .inr ⟨trivial, rfl⟩⟩
      · exact ⟨[], by simp, .inl rfl⟩
  obtain ⟨r, h1, h2⟩ := e4 (onModify (onRemove (onCreate c n.path n.flags (typeTold n)) n.path n.flags (typeTold n)) n.path n.flags (typeTold n))
  refine ⟨r, ?_, ?_⟩
  · rw [h1, e3, e2, e1.1]
    simp only [e1.2, List.append_assoc]
  · rw [el] at h2; exact h2

/-! ### Schedules -/

/-- What holds in every reachable state. -/
structure Good (w : Watch) (notified : List (List Note)) : Prop where
  ctx : w.ctx = recvAll {} w.handled
  split : ∃ acc, w.handled ++ (w.running.getD []) = acc.flatten ∧ List.Perm (acc ++ w.dropped ++ w.pending) notified ∧
    List.Sublist (acc ++ w.pending) notified
  mutex : (w.pc = .flushing ∨ w.pc = .closed) → w.running = none

theorem recvAll_snoc (c : Ctx) (ns : List Note) (n : Note) : recvAll c (ns ++ [n]) = recvOne (recvAll c ns) n := by
  simp [recvAll]

theorem good_step {w w' : Watch} {a : Act} {nt : List (List Note)} (h : Good w nt) (hs : step w a = some w') :
    Good w' (nt ++ queued [a]) := by
  obtain ⟨h1, ⟨acc, h2, h3, h4⟩, h5⟩ := h
  cases a with
  | notify b =>
    simp only [step] at hs
    split at hs
    · exact absurd hs (by simp)
    · rename_i hp
      injection hs with hs; subst hs
      refine ⟨h1, ⟨acc, h2, ?_, ?_⟩, h5⟩
      · simp only [queued]
        rw [← List.append_assoc]
        exact h3.append_right _
      · simp only [queued]
        rw [← List.append_assoc]
        exact h4.append (List.Sublist.refl _)
  | deliver =>
    simp only [step] at hs
    cases hp : w.pending with
    | nil => rw [hp] at hs; exact absurd hs (by simp)
    | cons b rest =>
      rw [hp] at hs
      simp only at hs
      simp only [queued, List.append_nil]
      rw [hp] at h3 h4
      split at hs
      · exact absurd hs (by simp)
      · split at hs
        · injection hs with hs; subst hs
          refine ⟨h1, ⟨acc, h2, ?_, ?_⟩, h5⟩
          · simp only
            rw [← List.append_assoc, List.append_assoc]
            exact h3
          · simp only
            exact ((List.Sublist.refl acc).append (List.sublist_cons_self b rest)).trans h4
        · rename_i hc hl
          injection hs with hs; subst hs
          have hr : w.running = none := by
            cases hr : w.running with
            | none => rfl
            | some x => simp [Watch.locked, hr] at hl
          have hf : w.pc ≠ .flushing := by
            intro hf; simp [Watch.locked, hf] at hl
          refine ⟨h1, ⟨acc ++ [b], ?_, ?_, ?_⟩, ?_⟩
          · rw [hr] at h2
            simp only [Option.getD_none, List.append_nil] at h2
            simp [h2]
          · simp only
            have : List.Perm (acc ++ [b] ++ w.dropped ++ rest) (acc ++ w.dropped ++ (b :: rest)) := by
              simp only [List.append_assoc]
              apply List.Perm.append_left
              simp only [List.singleton_append]
              exact List.perm_middle.symm
            exact this.trans h3
          · simp only [List.append_assoc, List.singleton_append]; exact h4
          · simp only
            rintro (h | h)
            · exact absurd h hf
            · exact absurd h hc
  | handle =>
    simp only [step] at hs
    simp only [queued, List.append_nil]
    split at hs
    · exact absurd hs (by simp)
    · rename_i hr
      injection hs with hs; subst hs
      rw [hr] at h2
      exact ⟨h1, ⟨acc, by simpa using h2, h3, h4⟩, fun _ => rfl⟩
    · rename_i n ns hr
      injection hs with hs; subst hs
      rw [hr] at h2
      refine ⟨?_, ⟨acc, ?_, h3, h4⟩, ?_⟩
      · simp only; rw [recvAll_snoc, ← h1]
      · simp only [Option.getD_some] at h2 ⊢
        rw [List.append_assoc]; exact h2
      · simp only
        intro hx
        have := h5 hx
        rw [hr] at this
        exact absurd this (by simp)
  | release =>
    simp only [step] at hs
    simp only [queued, List.append_nil]
    split at hs
    · injection hs with hs; subst hs
      refine ⟨h1, ⟨acc, h2, h3, h4⟩, ?_⟩
      simp
    · exact absurd hs (by simp)
  | lock =>
    simp only [step] at hs
    simp only [queued, List.append_nil]
    split at hs
    · rename_i hc
      injection hs with hs; subst hs
      refine ⟨h1, ⟨acc, h2, h3, h4⟩, ?_⟩
      intro _
      simp only
      cases hr : w.running with
      | none => rfl
      | some x => have := hc.2; simp [Watch.locked, hr] at this
    · exact absurd hs (by simp)
  | stop =>
    simp only [step] at hs
    simp only [queued, List.append_nil]
    split at hs
    · rename_i hc
      injection hs with hs; subst hs
      exact ⟨h1, ⟨acc, h2, h3, h4⟩, fun _ => h5 (.inl hc.1)⟩
    · exact absurd hs (by simp)

theorem queued_cons (a : Act) (as : List Act) : queued (a :: as) = queued [a] ++ queued as := by
  cases a <;> rfl

theorem good_run : ∀ (as : List Act) {w w' : Watch} {nt : List (List Note)}, Good w nt → run w as = some w' →
    Good w' (nt ++ queued as) := by
  intro as
  induction as with
  | nil => intro w w' nt h hr; simp only [run] at hr; injection hr with hr; subst hr; simpa [queued] using h
  | cons a as ih =>
    intro w w' nt h hr
    simp only [run] at hr
    cases hs : step w a with
    | none => rw [hs] at hr; exact absurd hr (by simp)
    | some v =>
      rw [hs] at hr
      have := ih (good_step h hs) hr
      rw [queued_cons, ← List.append_assoc]
      exact this

theorem good_init : Good {} [] := ⟨rfl, ⟨[], rfl, List.Perm.refl _, List.Sublist.refl _⟩, by simp⟩

/-- Nothing is handled once the watching thread has the mutex. -/
theorem quiet_step {w w' : Watch} {a : Act} (hr : w.running = none) (hp : w.pc = .flushing ∨ w.pc = .closed)
    (hs : step w a = some w') : w'.ctx = w.ctx ∧ w'.running = none ∧ (w'.pc = .flushing ∨ w'.pc = .closed) := by
  cases a with
  | notify b =>
    simp only [step] at hs
    split at hs
    · exact absurd hs (by simp)
    · injection hs with hs; subst hs; exact ⟨rfl, hr, hp⟩
  | deliver =>
    simp only [step] at hs
    cases hpd : w.pending with
    | nil => rw [hpd] at hs; exact absurd hs (by simp)
    | cons b rest =>
      rw [hpd] at hs
      simp only at hs
      split at hs
      · exact absurd hs (by simp)
      · rename_i hc
        have hf := hp.resolve_right hc
        rw [if_pos (by simp [Watch.locked, hf])] at hs
        injection hs with hs; subst hs; exact ⟨rfl, hr, hp⟩
  | handle => simp [step, hr] at hs
  | release => rcases hp with hp | hp <;> simp [step, hp] at hs
  | lock => rcases hp with hp | hp <;> simp [step, hp] at hs
  | stop =>
    simp only [step] at hs
    split at hs
    · injection hs with hs; subst hs; exact ⟨rfl, hr, .inr rfl⟩
    · exact absurd hs (by simp)

theorem quiet_run : ∀ (as : List Act) {w w' : Watch}, w.running = none → (w.pc = .flushing ∨ w.pc = .closed) →
    run w as = some w' → w'.ctx = w.ctx := by
  intro as
  induction as with
  | nil => intro w w' _ _ hr; simp only [run] at hr; injection hr with hr; rw [hr]
  | cons a as ih =>
    intro w w' h1 h2 hr
    simp only [run] at hr
    cases hs : step w a with
    | none => rw [hs] at hr; exact absurd hr (by simp)
    | some v =>
      rw [hs] at hr
      obtain ⟨h3, h4, h5⟩ := quiet_step h1 h2 hs
      exact (ih h4 h5 hr).trans h3

theorem closed_pending {w w' : Watch} {as : List Act} (h : w.pc = .closed → w.pending = []) (hr : run w as = some w') :
    w'.pc = .closed → w'.pending = [] := by
  induction as generalizing w with
  | nil => simp only [run] at hr; injection hr with hr; subst hr; exact h
  | cons a as ih =>
    simp only [run] at hr
    cases hs : step w a with
    | none => rw [hs] at hr; exact absurd hr (by simp)
    | some v =>
      rw [hs] at hr
      refine ih ?_ hr
      cases a with
      | notify b =>
        simp only [step] at hs
        split at hs
        · exact absurd hs (by simp)
        · rename_i hp; injection hs with hs; subst hs; intro hc; exact absurd hc hp
      | deliver =>
        simp only [step] at hs
        cases hpd : w.pending with
        | nil => rw [hpd] at hs; exact absurd hs (by simp)
        | cons b rest =>
          rw [hpd] at hs
          simp only at hs
          split at hs
          · exact absurd hs (by simp)
          · rename_i hc
            split at hs
            all_goals injection hs with hs; subst hs; intro hx; exact absurd hx hc
      | handle =>
        simp only [step] at hs
        split at hs
        · exact absurd hs (by simp)
        all_goals injection hs with hs; subst hs; exact h
      | release =>
        simp only [step] at hs
        split at hs
        · injection hs with hs; subst hs; intro hx; exact absurd hx (by simp)
        · exact absurd hs (by simp)
      | lock =>
        simp only [step] at hs
        split at hs
        · injection hs with hs; subst hs; intro hx; exact absurd hx (by simp)
        · exact absurd hs (by simp)
      | stop =>
        simp only [step] at hs
        split at hs
        · rename_i hc; injection hs with hs; subst hs; intro _; exact hc.2
        · exact absurd hs (by simp)

/-! ### Moves inside the tree -/

theorem renames_moves (ms : List Move) : ∀ b, renames (movesNotes b ms) = movesNotes b ms := by
  induction ms with
  | nil => intro b; rfl
  | cons m ms ih =>
    intro b
    have := ih m.gone
    unfold renames at this ⊢
    simp only [movesNotes, List.filter_append, this]
    congr 1
    cases m <;> simp [Move.notes, bit]

theorem pairing_moves (ms : List (Str × Str)) (h : ∀ m ∈ ms, m.1 ≠ [] ∧ squeeze m.1 ≠ squeeze m.2) :
    Pairing (movesNotes false (ms.map (fun m => .within m.1 m.2))) ms := by
  induction ms with
  | nil => exact .nil
  | cons m ms ih =>
    have h1 := h m (by simp)
    exact .pair _ _ _ _ ⟨h1.1, h1.2, rfl⟩ (ih (fun x hx => h x (by simp [hx])))

end Verif.Lemmas.Darwin
