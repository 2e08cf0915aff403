import Verif.Spec.DarwinAll
import Verif.Props.DarwinLife
/-!
# What is reported on Darwin, in every case: C127
-/

namespace Verif.Props
open Verif Verif.Model Verif.Model.Darwin Verif.Spec.Darwin Verif.Lemmas.Darwin

private theorem seen_create (c : Ctx) (path : Str) (fl : BitVec 32) (pt : PathType) (p : Str) :
    p ∈ (onCreate c path fl pt).seen ↔ p ∈ c.seen ∨ (path = p ∧ fl.getLsbD 8 = true) := by
  unfold onCreate
  rw [d_create]
  cases fl.getLsbD 8 with
  | false => simp
  | true =>
    by_cases hs : path ∈ c.seen
    · simp only [if_true, List.contains_iff_mem.2 hs]
      constructor
      · exact .inl
      · rintro (h | ⟨rfl, _⟩)
        · exact h
        · exact hs
    · simp [hs, Ctx.send, eq_comm, or_comm]

private theorem seen_remove (c : Ctx) (path : Str) (fl : BitVec 32) (pt : PathType) (p : Str) :
    p ∈ (onRemove c path fl pt).seen ↔ p ∈ c.seen ∧ ¬ (path = p ∧ fl.getLsbD 9 = true) := by
  unfold onRemove
  rw [d_remove]
  cases fl.getLsbD 9 with
  | false => simp
  | true =>
    by_cases hs : path ∈ c.seen
    · simp only [if_true, List.contains_iff_mem, hs, Ctx.send, List.mem_filter, bne_iff_ne, ne_eq, and_true]
      constructor
      · rintro ⟨h1, h2⟩; exact ⟨h1, fun h => h2 h.symm⟩
      · rintro ⟨h1, h2⟩; exact ⟨h1, fun h => h2 h.symm⟩
    · simp only [if_true, hs, List.contains_iff_mem, if_false]
      constructor
      · intro h; exact ⟨h, fun ⟨h1, _⟩ => hs (h1 ▸ h)⟩
      · exact And.left

private theorem seen_one (c : Ctx) (n : Note) (p : Str) :
    p ∈ (recvOne c n).seen ↔ (p ∈ c.seen ∨ (n.path = p ∧ bit n 8 = true)) ∧ ¬ (n.path = p ∧ bit n 9 = true) := by
  have hm : ∀ (c : Ctx) (path : Str) (fl : BitVec 32) (pt : PathType), (onModify c path fl pt).seen = c.seen := by
    intro c path fl pt; unfold onModify; split <;> rfl
  have hr : ∀ (c : Ctx) (path : Str) (fl : BitVec 32) (pt : PathType) (m : Bool), (onRename c path fl pt m).seen = c.seen := by
    intro c path fl pt m; unfold onRename; simp only; repeat' split
    all_goals rfl
  by_cases hu : Unrecognised n
  · have := (unrec_iff n).2 hu
    have h8 := hu 8 (by omega) (by omega)
    have h9 := hu 9 (by omega) (by omega)
    simp [recvOne, this, Ctx.send, h8, h9]
  · have hany : anyBit n.flags effectAny = true := by
      cases h : anyBit n.flags effectAny with
      | true => rfl
      | false => exact absurd ((unrec_iff n).1 h) hu
    unfold recvOne
    simp only [hany, Bool.not_true, Bool.false_eq_true, if_false]
    rw [hr, hm, seen_remove, seen_create]
    rfl

/-- What is known after one more notification. -/
private theorem known_snoc (p : Str) (ns : List Note) (n : Note) :
    Known p (ns ++ [n]) ↔ (Known p ns ∨ (n.path = p ∧ bit n 8 = true)) ∧ ¬ (n.path = p ∧ bit n 9 = true) := by
  constructor
  · rintro ⟨a, m, b, he, h1, h2, h3, h4⟩
    rcases List.eq_nil_or_concat b with rfl | ⟨b', x, rfl⟩
    · obtain ⟨rfl, hx⟩ := List.append_inj' he rfl
      injection hx with hx _
      subst hx
      exact ⟨.inr ⟨h1, h2⟩, fun h => by rw [h3] at h; cases h.2⟩
    · have he' : ns ++ [n] = (a ++ m :: b') ++ [x] := by simpa using he
      obtain ⟨rfl, hx⟩ := List.append_inj' he' rfl
      injection hx with hx _
      subst hx
      refine ⟨.inl ⟨a, m, b', rfl, h1, h2, h3, fun y hy => h4 y (by simp [hy])⟩, fun h => ?_⟩
      have := h4 n (by simp) h.1
      rw [this] at h; cases h.2
  · rintro ⟨h, hn⟩
    by_cases hp : n.path = p
    · have h9 : bit n 9 = false := by
        cases hb : bit n 9 with
        | false => rfl
        | true => exact absurd ⟨hp, hb⟩ hn
      rcases h with ⟨a, m, b, rfl, h1, h2, h3, h4⟩ | ⟨_, h8⟩
      · refine ⟨a, m, b ++ [n], by simp, h1, h2, h3, ?_⟩
        intro y hy hyp
        rcases List.mem_append.1 hy with hy | hy
        · exact h4 y hy hyp
        · rw [List.mem_singleton.1 hy]; exact h9
      · exact ⟨ns, n, [], rfl, hp, h8, h9, fun y hy => by cases hy⟩
    · rcases h with ⟨a, m, b, rfl, h1, h2, h3, h4⟩ | ⟨h, _⟩
      · refine ⟨a, m, b ++ [n], by simp, h1, h2, h3, ?_⟩
        intro y hy hyp
        rcases List.mem_append.1 hy with hy | hy
        · exact h4 y hy hyp
        · rw [List.mem_singleton.1 hy] at hyp; exact absurd hyp hp
      · exact absurd h hp

private theorem snoc_ind {P : List Note → Prop} (h0 : P []) (h1 : ∀ ns n, P ns → P (ns ++ [n])) (ns : List Note) : P ns := by
  have : ∀ k (ns : List Note), ns.length = k → P ns := by
    intro k
    induction k with
    | zero => intro ns h; rw [List.length_eq_zero_iff.1 h]; exact h0
    | succ k ih =>
      intro ns h
      rcases List.eq_nil_or_concat ns with rfl | ⟨l, x, rfl⟩
      · cases h
      · simp only [List.concat_eq_append, List.length_append, List.length_singleton] at h ⊢
        exact h1 l x (ih l (by omega))
  exact this _ ns rfl

private theorem seen_known (p : Str) (ns : List Note) : p ∈ (recvAll {} ns).seen ↔ Known p ns := by
  refine snoc_ind (P := fun ns => p ∈ (recvAll {} ns).seen ↔ Known p ns) ?_ ?_ ns
  · refine ⟨fun h => by simp [recvAll] at h, ?_⟩
    rintro ⟨a, n, b, h, _⟩
    exact absurd h (by simp)
  · intro ns n ih
    rw [recvAll_snoc, seen_one, known_snoc, ih]

private theorem waiting_last (ns : List Note) : ∃ w, Waiting ns w ∧ (recvAll {} ns).last = (w.map Note.path).getD [] := by
  refine snoc_ind (P := fun ns => ∃ w, Waiting ns w ∧ (recvAll {} ns).last = (w.map Note.path).getD []) ?_ ?_ ns
  · exact ⟨none, .nil, rfl⟩
  · rintro ns n ⟨w, hw, hl⟩
    rw [recvAll_snoc]
    obtain ⟨k1, k2⟩ := one_rename (recvAll {} ns) n
    cases hb : bit n 11 with
    | false => exact ⟨w, .other ns n w hb hw, by rw [(k1 hb).1, hl]⟩
    | true =>
      cases w with
      | none =>
        refine ⟨some n, .first ns n hb hw, ?_⟩
        have : (recvAll {} ns).last = [] := hl
        rw [((k2 hb).2 (fun h => h.1 this)).1]; rfl
      | some a =>
        have hl : (recvAll {} ns).last = a.path := hl
        by_cases hc : Connects a n
        · refine ⟨none, .joined ns a n hb hw hc, ?_⟩
          rw [((k2 hb).1 (by rw [hl]; exact hc)).1]; rfl
        · refine ⟨some n, .instead ns a n hb hw hc, ?_⟩
          rw [((k2 hb).2 (by rw [hl]; exact hc)).1]; rfl

private theorem waiting_unique {ns : List Note} {w w' : Option Note} (h : Waiting ns w) (h' : Waiting ns w') : w = w' := by
  induction h generalizing w' with
  | nil =>
    generalize he : ([] : List Note) = l at h'
    cases h' with
    | nil => rfl
    | other | first | joined | instead => exact absurd he (by simp)
  | other ns n w hb _ ih =>
    generalize he : ns ++ [n] = l at h'
    cases h' with
    | nil => exact absurd he (by simp)
    | other ns' n' _ hb' h' => obtain ⟨rfl, hx⟩ := List.append_inj' he rfl; exact ih h'
    | first ns' n' hb' h' => obtain ⟨rfl, hx⟩ := List.append_inj' he rfl; injection hx with hx _; subst hx; rw [hb] at hb'; cases hb'
    | joined ns' a n' hb' h' => obtain ⟨rfl, hx⟩ := List.append_inj' he rfl; injection hx with hx _; subst hx; rw [hb] at hb'; cases hb'
    | instead ns' a n' hb' h' => obtain ⟨rfl, hx⟩ := List.append_inj' he rfl; injection hx with hx _; subst hx; rw [hb] at hb'; cases hb'
  | first ns n hb _ ih =>
    generalize he : ns ++ [n] = l at h'
    cases h' with
    | nil => exact absurd he (by simp)
    | other ns' n' _ hb' h' => obtain ⟨rfl, hx⟩ := List.append_inj' he rfl; injection hx with hx _; subst hx; rw [hb] at hb'; cases hb'
    | first ns' n' hb' h' => obtain ⟨rfl, hx⟩ := List.append_inj' he rfl; injection hx with hx _; subst hx; rfl
    | joined ns' a n' hb' h' => obtain ⟨rfl, hx⟩ := List.append_inj' he rfl; exact absurd (ih h') (by simp)
    | instead ns' a n' hb' h' => obtain ⟨rfl, hx⟩ := List.append_inj' he rfl; exact absurd (ih h') (by simp)
  | joined ns a n hb _ hc ih =>
    generalize he : ns ++ [n] = l at h'
    cases h' with
    | nil => exact absurd he (by simp)
    | other ns' n' _ hb' h' => obtain ⟨rfl, hx⟩ := List.append_inj' he rfl; injection hx with hx _; subst hx; rw [hb] at hb'; cases hb'
    | first ns' n' hb' h' => obtain ⟨rfl, hx⟩ := List.append_inj' he rfl; exact absurd (ih h') (by simp)
    | joined ns' a' n' hb' h' => rfl
    | instead ns' a' n' hb' h' hc' =>
      obtain ⟨rfl, hx⟩ := List.append_inj' he rfl; injection hx with hx _; subst hx
      have := ih h'; injection this with this; subst this; exact absurd hc hc'
  | instead ns a n hb _ hc ih =>
    generalize he : ns ++ [n] = l at h'
    cases h' with
    | nil => exact absurd he (by simp)
    | other ns' n' _ hb' h' => obtain ⟨rfl, hx⟩ := List.append_inj' he rfl; injection hx with hx _; subst hx; rw [hb] at hb'; cases hb'
    | first ns' n' hb' h' => obtain ⟨rfl, hx⟩ := List.append_inj' he rfl; exact absurd (ih h') (by simp)
    | joined ns' a' n' hb' h' hc' =>
      obtain ⟨rfl, hx⟩ := List.append_inj' he rfl; injection hx with hx _; subst hx
      have := ih h'; injection this with this; subst this; exact absurd hc' hc
    | instead ns' a' n' hb' h' hc' => obtain ⟨rfl, hx⟩ := List.append_inj' he rfl; injection hx with hx _; subst hx; rfl

private theorem if_if (c : Prop) [Decidable c] (e : Ev) : If c e (if c then [e] else []) := by
  by_cases h : c
  · rw [if_pos h]; exact .inl ⟨h, rfl⟩
  · rw [if_neg h]; exact .inr ⟨h, rfl⟩

/-- One notification. -/
private theorem says_one (ns : List Note) (n : Note) : ∃ es, (recvAll {} (ns ++ [n])).out = (recvAll {} ns).out ++ es ∧ Says ns n es := by
  rw [recvAll_snoc]
  by_cases hu : Unrecognised n
  · exact ⟨_, C47_darwin_unrecognised _ n hu, .inl ⟨hu, rfl⟩⟩
  · obtain ⟨r, h1, h2⟩ := one_events (recvAll {} ns) n hu
    refine ⟨_, h1, .inr ⟨hu, _, _, _, _, rfl, ?_, ?_, ?_, ?_⟩⟩
    · rw [← seen_known]; exact if_if ..
    · rw [← seen_known]; exact if_if ..
    · exact @if_if _ (Classical.propDecidable _) _
    · obtain ⟨w, hw, hl⟩ := waiting_last ns
      obtain ⟨k1, k2⟩ := one_rename (recvAll {} ns) n
      have hren : renameEvents (recvOne (recvAll {} ns) n).out = renameEvents (recvAll {} ns).out ++ renameEvents r := by
        rw [h1]
        simp only [renameEvents_append]
        have h0 : ∀ (c : Prop) [i : Decidable c] (e : Ev), e.effect ≠ .rename → renameEvents (@ite _ c i [e] []) = [] := by
          intro c _ e he
          split
          · simp only [renameEvents]; split
            · rename_i h _; exact absurd h he
            · rfl
          · rfl
        rw [h0 (i := _) _ _ (by simp), h0 (i := _) _ _ (by simp), h0 (i := _) _ _ (by simp)]
        simp
      by_cases hx : ∃ a, bit n 11 = true ∧ Waiting ns (some a) ∧ Connects a n
      · left
        obtain ⟨a, hb, hwa, hc⟩ := hx
        have := waiting_unique hw hwa
        subst this
        have hl : (recvAll {} ns).last = a.path := hl
        have h3 := ((k2 hb).1 (by rw [hl]; exact hc)).2
        rw [hren] at h3
        have h4 := List.append_cancel_left h3
        rcases h2 with rfl | ⟨_, h2⟩
        · cases h4
        · exact ⟨a, hb, hwa, hc, by rw [h2, hl]⟩
      · right
        refine ⟨hx, ?_⟩
        rcases h2 with h2 | ⟨hb, h2⟩
        · exact h2
        · exfalso
          have h3 : renameEvents (recvOne (recvAll {} ns) n).out = renameEvents (recvAll {} ns).out := by
            refine ((k2 hb).2 ?_).2
            intro hc
            cases w with
            | none => exact hc.1 hl
            | some a =>
              have hl : (recvAll {} ns).last = a.path := hl
              rw [hl] at hc
              exact hx ⟨a, hb, hw, hc⟩
          rw [hren, h2] at h3
          have := congrArg List.length h3
          simp [renameEvents] at this

/-- C127: every history of notifications, with any flags, is reported exactly as the specification tells. -/
theorem C127_darwin_exact (ns : List Note) : Story ns (recvAll {} ns).out := by
  refine snoc_ind (P := fun ns => Story ns (recvAll {} ns).out) .nil ?_ ns
  intro ns n ih
  obtain ⟨es, h1, h2⟩ := says_one ns n
  rw [h1]
  exact .snoc ns n _ es ih h2

private theorem if_unique {c : Prop} {e : Ev} {l l' : List Ev} (h : If c e l) (h' : If c e l') : l = l' := by
  rcases h with ⟨h1, rfl⟩ | ⟨h1, rfl⟩ <;> rcases h' with ⟨h2, rfl⟩ | ⟨h2, rfl⟩
  · rfl
  · exact absurd h1 h2
  · exact absurd h2 h1
  · rfl

/-- C127: the specification gives each history one report. -/
theorem C127_one_story (ns : List Note) (o o' : List Ev) (h : Story ns o) (h' : Story ns o') : o = o' := by
  induction h generalizing o' with
  | nil =>
    generalize he : ([] : List Note) = l at h'
    cases h' with
    | nil => rfl
    | snoc => exact absurd he (by simp)
  | snoc ns n o es _ hs ih =>
    generalize he : ns ++ [n] = l at h'
    cases h' with
    | nil => exact absurd he (by simp)
    | snoc ns' n' o' es' h' hs' =>
      obtain ⟨rfl, hx⟩ := List.append_inj' he rfl
      injection hx with hx _
      subst hx
      rw [ih o' h']
      congr 1
      rcases hs with ⟨hu, rfl⟩ | ⟨hu, c, d, m, r, rfl, h1, h2, h3, h4⟩ <;> rcases hs' with ⟨hu', rfl⟩ | ⟨hu', c', d', m', r', rfl, h1', h2', h3', h4'⟩
      · rfl
      · exact absurd hu hu'
      · exact absurd hu' hu
      · rw [if_unique h1 h1', if_unique h2 h2', if_unique h3 h3']
        congr 1
        rcases h4 with ⟨a, ha, hw, hc, rfl⟩ | ⟨hn, rfl⟩ <;> rcases h4' with ⟨a', ha', hw', hc', rfl⟩ | ⟨hn', rfl⟩
        · have := waiting_unique hw hw'
          injection this with this
          subst this; rfl
        · exact absurd ⟨a, ha, hw, hc⟩ hn'
        · exact absurd ⟨a', ha', hw', hc'⟩ hn
        · rfl

/-- C127: a whole watch. When it has ended after a live message that said all is well, the callback got that message, the
report of the notifications of the batches that were handled, one batch after the other, and the die message. Batches
that come while another one is handled, or while the watch is closing, are dropped as a whole. -/
theorem C127_darwin_whole_life (d : Bool) (acts : List DLife.Act) (s : DLife.St) (h : DLife.run true d {} acts = some s) (hw : s.w = .finished)
    (hl : DLife.Obs.cb (.live true) ∈ s.log) :
    ∃ (r : Bool) (handled dropped : List (List Note)) (o : List Ev), List.Perm (handled ++ dropped) (Spec.DLife.notified acts) ∧ Story handled.flatten o ∧
      Spec.DLife.callbacks s.log = .live true :: o.map .ev ++ [.die r] ∧
      ((∀ i, DLife.Act.tryLock i ∈ acts → i = 0) → List.Sublist handled (Spec.DLife.notified acts)) := by
  obtain ⟨r, h1, h2, h3⟩ := Props.DLife.C101_delivers_exactly d acts s h hw hl
  exact ⟨r, s.taken, s.dropped, _, h2, C127_darwin_exact _, h1, h3⟩

-- a file made, written and removed in one notification, then a rename with something between its halves
private def dns : List Note := [⟨b!"/w/a", 0x11300#32, false⟩, ⟨b!"/w/b", 0x10800#32, false⟩, ⟨b!"/w/a", 0x10100#32, false⟩, ⟨b!"/w/c", 0x10800#32, true⟩, ⟨b!"/w", 0x20000#32, false⟩]
example : Story dns [⟨b!"/w/a", .create, .file, none⟩, ⟨b!"/w/a", .destroy, .file, none⟩, ⟨b!"/w/a", .modify, .file, none⟩, ⟨b!"/w/a", .create, .file, none⟩,
    ⟨b!"/w/b", .rename, .file, some ⟨b!"/w/c", .rename, .file⟩⟩, ⟨b!"/w", .other, .dir, none⟩] := by
  have h := C127_darwin_exact dns
  have he : (recvAll {} dns).out = [⟨b!"/w/a", .create, .file, none⟩, ⟨b!"/w/a", .destroy, .file, none⟩, ⟨b!"/w/a", .modify, .file, none⟩, ⟨b!"/w/a", .create, .file, none⟩,
    ⟨b!"/w/b", .rename, .file, some ⟨b!"/w/c", .rename, .file⟩⟩, ⟨b!"/w", .other, .dir, none⟩] := by decide +kernel
  rw [he] at h
  exact h
private def dlife : List DLife.Act := [.w, .w, .w, .cbReturn, .opened true, .w, .notify [⟨b!"/w/a", 0x10100#32, false⟩], .enter, .tryLock 0, .k, .k, .kReturn, .k,
  .oClose, .o, .o, .w, .w, .w, .w, .w, .cbReturn, .w, .o, .o]
example : (DLife.run true true {} dlife).map (fun s => (decide (s.w = .finished), Spec.DLife.callbacks s.log)) =
    some (true, [.live true, .ev ⟨b!"/w/a", .create, .file, none⟩, .die true]) := by decide +kernel

end Verif.Props
