import Verif.Lemmas.FKernel3
/-! Histories in which no directory is removed: what is pending is told (C85, C86). -/
namespace Verif.Lemmas.FKer
open Verif Verif.Model Verif.Model.Fa Verif.Model.FKer Verif.Spec Verif.Spec.FKer Verif.Lemmas.Fa

variable {rf : Bool}

/-- The events tell the records. -/
inductive RTold (past : List (Handle × Str)) : List FRec → List Ev → Prop
  | nil : RTold past [] []
  | one {r : FRec} {l : List FRec} {d : Str} {es : List Ev} : (r.handle, d) ∈ past → RTold past l es →
      RTold past (r :: l) (⟨d ++ b!"/" ++ r.name, r.effect, r.ptype, none⟩ :: es)
  | both {a b : FRec} {l : List FRec} {d d' : Str} {es : List Ev} : a.fromTo b = true → (a.handle, d) ∈ past → (b.handle, d') ∈ past →
      RTold past l es →
      RTold past (a :: b :: l) (⟨d ++ b!"/" ++ a.name, .rename, a.ptype, some ⟨d' ++ b!"/" ++ b.name, .rename, a.ptype⟩⟩ :: es)

theorem RTold.mono {past past' : List (Handle × Str)} (h : past <+: past') {rs : List FRec} {es : List Ev} (hr : RTold past rs es) : RTold past' rs es := by
  induction hr with
  | nil => exact .nil
  | one a _ ih => exact .one (h.subset a) ih
  | both a b c _ ih => exact .both a (h.subset b) (h.subset c) ih

/-- Of the directories `need` is about, none was removed. -/
def Here (need : Handle → Prop) (k : K) : Prop := ∀ e ∈ k.past, need e.1 → e.1 ∈ k.dirs.map (·.1)

/-- No directory was removed. -/
abbrev AllHere (k : K) : Prop := Here (fun _ => True) k

variable {need : Handle → Prop}

theorem Here.same {k k' : K} (h : Here need k) (hf : k'.dirs = k.dirs ∧ k'.marked = k.marked ∧ k'.past = k.past) : Here need k' := by
  unfold Here; rw [hf.1, hf.2.2]; exact h

theorem apply_here {k : K} (h : Here need k) (who : Who) (op : Op) (hk : keeps ⟨op, who⟩ = true) : Here need (apply k who op) := by
  cases op with
  | create d n => simp only [apply]; split; exact h.same (notify_frame ..); exact h
  | modify d n => simp only [apply]; split; exact h.same (notify_frame ..); exact h
  | unlink d n => simp only [apply]; split; exact h.same (notify_frame ..); exact h
  | move d1 n1 d2 n2 => simp only [apply]; split; exact (h.same (notify_frame ..)).same (notify_frame ..); exact h
  | mkdir d n g =>
    simp only [apply]
    split
    · refine Here.same ?_ (notify_frame ..)
      intro e he hn
      simp only [List.mem_append, List.mem_singleton, List.map_append, List.map_cons, List.map_nil] at he ⊢
      rcases he with he | rfl
      · exact .inl (h e he hn)
      · exact .inr rfl
    · exact h
  | rmdir d n => cases hk
  | moveOver d1 n1 d2 n2 => cases hk
  | moveDir d1 n1 d2 n2 =>
    simp only [apply, moveDirF]
    split
    · have h2 := (h.same (notify_frame k d1 n1 .moveFrom true who)).same (notify_frame _ d2 n2 .moveTo true who)
      intro e he hn
      simp only [List.mem_append, List.map_map] at he ⊢
      rcases he with he | he
      · exact h2 e he hn
      · obtain ⟨a, ha, rfl⟩ := List.mem_map.1 he
        exact List.mem_map.2 ⟨a, ha, rfl⟩
    · exact h
  | swapDirs d1 n1 d2 n2 =>
    simp only [apply, swapDirsF]
    split
    · have h2 := (((h.same (notify_frame k d1 n1 .moveFrom true who)).same (notify_frame _ d2 n2 .moveTo true who)).same
        (notify_frame _ d2 n2 .moveFrom true who)).same (notify_frame _ d1 n1 .moveTo true who)
      intro e he hn
      simp only [List.mem_append, List.map_map] at he ⊢
      rcases he with he | he
      · exact h2 e he hn
      · obtain ⟨a, ha, rfl⟩ := List.mem_map.1 he
        exact List.mem_map.2 ⟨a, ha, rfl⟩
    · exact h

theorem doIt_here {k : K} (h : Here need k) (x : Do) (hk : keeps x = true) : Here need (doIt k x) := by
  unfold doIt
  split
  · exact apply_here h _ _ hk
  · exact h

/-! ## How log and queue go together -/

/-- The record of a change. -/
def Corr (c : Change) (r : FRec) : Prop := ∃ who : Who, r = recOf c.handle c.kind c.name c.onDir who

/-- The records of the changes, one after the other. -/
inductive Corrs : List Change → List FRec → Prop
  | nil : Corrs [] []
  | cons {c : Change} {r : FRec} {cs : List Change} {rs : List FRec} : Corr c r → Corrs cs rs → Corrs (c :: cs) (r :: rs)

theorem Corrs.append {a b : List Change} {x y : List FRec} (h : Corrs a x) (h2 : Corrs b y) : Corrs (a ++ b) (x ++ y) := by
  induction h with
  | nil => exact h2
  | cons c _ ih => exact .cons c ih

/-- What the history guarantees of the log and the queue: either (`m = true`, without merging) the queue is the
end of the log, or every change is among `seen`, or a record about its entry is pending. -/
def Kept (m : Bool) (seen : List Change) (k : K) : Prop :=
  if m then ∃ P, k.log = seen ++ P ∧ Corrs P k.queue
  else ∀ c ∈ k.log, c ∈ seen ∨ ∃ r ∈ k.queue, r.handle = c.handle ∧ r.name = c.name

theorem mergeInto_keys {r : FRec} : ∀ {q q' : List FRec}, mergeInto q r = some q' →
    (∀ x ∈ q, ∃ y ∈ q', y.handle = x.handle ∧ y.name = x.name) ∧ ∃ y ∈ q', y.handle = r.handle ∧ y.name = r.name := by
  intro q
  induction q with
  | nil => intro q' h; cases h
  | cons x q ih =>
    intro q' h
    rw [mergeInto] at h
    split at h
    · rename_i hs
      injection h with h
      subst h
      unfold same at hs
      simp only [Bool.and_eq_true, beq_iff_eq] at hs
      refine ⟨?_, _, List.mem_cons_self, hs.1.1.1, hs.1.1.2⟩
      intro y hy
      rcases List.mem_cons.1 hy with rfl | hy
      · exact ⟨_, List.mem_cons_self, rfl, rfl⟩
      · exact ⟨y, List.mem_cons_of_mem _ hy, rfl, rfl⟩
    · rw [Option.map_eq_some_iff] at h
      obtain ⟨q2, h1, rfl⟩ := h
      obtain ⟨h2, y, h3, h4⟩ := ih h1
      refine ⟨?_, y, List.mem_cons_of_mem _ h3, h4⟩
      intro z hz
      rcases List.mem_cons.1 hz with rfl | hz
      · exact ⟨z, List.mem_cons_self, rfl, rfl⟩
      · obtain ⟨u, hu, hu2⟩ := h2 z hz
        exact ⟨u, List.mem_cons_of_mem _ hu, hu2⟩

theorem enqueue_keys (q : List FRec) (r : FRec) (m : Bool) :
    (∀ x ∈ q, ∃ y ∈ enqueue q r m, y.handle = x.handle ∧ y.name = x.name) ∧ ∃ y ∈ enqueue q r m, y.handle = r.handle ∧ y.name = r.name := by
  have happ : (∀ x ∈ q, ∃ y ∈ q ++ [r], y.handle = x.handle ∧ y.name = x.name) ∧ ∃ y ∈ q ++ [r], y.handle = r.handle ∧ y.name = r.name :=
    ⟨fun x hx => ⟨x, by simp [hx], rfl, rfl⟩, r, by simp, rfl, rfl⟩
  unfold enqueue
  cases m with
  | false => exact happ
  | true =>
    simp only [if_true]
    cases h : mergeInto q r with
    | none => exact happ
    | some q' => exact mergeInto_keys h

theorem notify_kept {m : Bool} {seen : List Change} {k : K} (h : Kept m seen k) (d n : Str) (kind : Kind) (od : Bool) (who : Who)
    (hm : m = true → who.merge = false) : Kept m seen (notify k d n kind od who) := by
  unfold notify
  cases hh : handleOf k d with
  | none => exact h
  | some g =>
    simp only
    split
    · cases m with
      | true =>
        obtain ⟨P, h1, h2⟩ := h
        refine ⟨P ++ [⟨g, d, n, kind, od⟩], by simp only [h1, List.append_assoc], ?_⟩
        simp only [enqueue, hm rfl, Bool.false_eq_true, if_false]
        exact h2.append (.cons ⟨who, rfl⟩ .nil)
      | false =>
        have h : ∀ c ∈ k.log, c ∈ seen ∨ ∃ r ∈ k.queue, r.handle = c.handle ∧ r.name = c.name := h
        intro c hc
        have hk := enqueue_keys k.queue (recOf g kind n od who) who.merge
        rcases List.mem_append.1 hc with hc | hc
        · rcases h c hc with h | ⟨r, hr, h1, h2⟩
          · exact .inl h
          · obtain ⟨y, hy, h3, h4⟩ := hk.1 r hr
            exact .inr ⟨y, hy, h3.trans h1, h4.trans h2⟩
        · rw [List.mem_singleton] at hc; subst hc
          exact .inr hk.2
    · exact h

theorem Kept.same {m : Bool} {seen : List Change} {k k' : K} (h : Kept m seen k) (h1 : k'.log = k.log) (h2 : k'.queue = k.queue) : Kept m seen k' := by
  unfold Kept at h ⊢; rw [h1, h2]; exact h

theorem moveDirF_kept {m : Bool} {seen : List Change} {k : K} (h : Kept m seen k) (who : Who) (d1 n1 d2 n2 : Str) (hm : m = true → who.merge = false) :
    Kept m seen (moveDirF k who d1 n1 d2 n2) := by
  simp only [moveDirF]
  split
  · exact (notify_kept (notify_kept h _ _ _ _ _ hm) _ _ _ _ _ hm).same rfl rfl
  · exact h

theorem apply_kept {m : Bool} {seen : List Change} {k : K} (h : Kept m seen k) (who : Who) (op : Op) (hm : m = true → who.merge = false) :
    Kept m seen (apply k who op) := by
  cases op with
  | create d n => simp only [apply]; split; exact notify_kept h _ _ _ _ _ hm; exact h
  | modify d n => simp only [apply]; split; exact notify_kept h _ _ _ _ _ hm; exact h
  | unlink d n => simp only [apply]; split; exact notify_kept h _ _ _ _ _ hm; exact h
  | move d1 n1 d2 n2 => simp only [apply]; split; exact notify_kept (notify_kept h _ _ _ _ _ hm) _ _ _ _ _ hm; exact h
  | mkdir d n g =>
    simp only [apply]
    split
    · exact notify_kept (k := { k with dirs := k.dirs ++ [(g, child d n)], past := k.past ++ [(g, child d n)] }) (h.same rfl rfl) _ _ _ _ _ hm
    · exact h
  | rmdir d n => simp only [apply]; split; exact (notify_kept h _ _ _ _ _ hm).same rfl rfl; exact h
  | moveDir d1 n1 d2 n2 => exact moveDirF_kept h _ _ _ _ _ hm
  | moveOver d1 n1 d2 n2 =>
    simp only [apply]
    split
    · exact moveDirF_kept (k := vanish k (child d2 n2)) (h.same rfl rfl) _ _ _ _ _ hm
    · exact h
  | swapDirs d1 n1 d2 n2 =>
    simp only [apply, swapDirsF]
    split
    · exact (notify_kept (notify_kept (notify_kept (notify_kept h _ _ _ _ _ hm) _ _ _ _ _ hm) _ _ _ _ _ hm) _ _ _ _ _ hm).same rfl rfl
    · exact h

theorem doIt_kept {m : Bool} {seen : List Change} {k : K} (h : Kept m seen k) (x : Do) (hm : m = true → apart x = true) : Kept m seen (doIt k x) := by
  unfold doIt
  split
  · exact apply_kept h _ _ (fun hx => by have := hm hx; simpa [apart] using this)
  · exact h

/-- Records are not merged, if `m`. -/
def mild (m : Bool) (x : Do) : Bool := !m || apart x

/-- The operations allowed during a read. -/
def allowed (m : Bool) (x : Do) : Bool := keeps x && mild m x

theorem allSched_allowed {m : Bool} {sched : List (List Do × Bool)} (h : allSched (allowed m) sched = true) :
    allSched (mild m) sched = true ∧ allSched keeps sched = true := by
  simp only [allSched, List.all_eq_true] at h ⊢
  exact ⟨fun a ha x hx => (Bool.and_eq_true _ _ ▸ h a ha x hx : _ ∧ _).2, fun a ha x hx => (Bool.and_eq_true _ _ ▸ h a ha x hx : _ ∧ _).1⟩

theorem allowed_and {m : Bool} {sched : List (List Do × Bool)} (h1 : allSched (mild m) sched = true) (h2 : allSched keeps sched = true) :
    allSched (allowed m) sched = true := by
  simp only [allSched, List.all_eq_true] at h1 h2 ⊢
  intro a ha x hx
  simp only [allowed, Bool.and_eq_true]
  exact ⟨h2 a ha x hx, h1 a ha x hx⟩

theorem mild_of {m : Bool} {x : Do} (h : allowed m x = true) : mild m x = true := by
  simp only [allowed, Bool.and_eq_true] at h; exact h.2

/-- The worlds of these histories. -/
structure WInvN (need : Handle → Prop) (m : Bool) (seen : List Change) (w : World) : Prop where
  k : KInv w.k
  here : Here need w.k
  kept : Kept m seen w.k
  sched : allSched (mild m) w.sched = true
  still : allSched keeps w.sched = true ∨ ∀ h, ¬ need h

abbrev WInv (m : Bool) (seen : List Change) (w : World) : Prop := WInvN (fun _ => True) m seen w

theorem doIts_w {m : Bool} {seen : List Change} (xs : List Do) : ∀ {k : K}, KInv k → Here need k → Kept m seen k → xs.all (mild m) = true →
    (xs.all keeps = true ∨ ∀ h, ¬ need h) →
    KInv (xs.foldl doIt k) ∧ Here need (xs.foldl doIt k) ∧ Kept m seen (xs.foldl doIt k) ∧ Grows k (xs.foldl doIt k) := by
  induction xs with
  | nil => intro k a b c _ _; exact ⟨a, b, c, .refl _⟩
  | cons x xs ih =>
    intro k a b c d e
    rw [List.all_cons, Bool.and_eq_true] at d
    have hx : m = true → apart x = true := by
      rintro rfl
      have := d.1
      simpa [mild] using this
    have h1 := doIt_kinv a x
    have hh : Here need (doIt k x) ∧ (xs.all keeps = true ∨ ∀ h, ¬ need h) := by
      rcases e with e | e
      · rw [List.all_cons, Bool.and_eq_true] at e
        exact ⟨doIt_here b x e.1, .inl e.2⟩
      · exact ⟨fun y _ hn => absurd hn (e _), .inr e⟩
    have h2 := ih h1.1 hh.1 (doIt_kept c x hx) d.2 hh.2
    exact ⟨h2.1, h2.2.1, h2.2.2.1, h1.2.trans h2.2.2.2⟩

theorem tick_w {m : Bool} {seen : List Change} {w : World} (h : WInvN need m seen w) : WInvN need m seen (tick w).2 ∧ Grows w.k (tick w).2.k := by
  unfold tick
  split
  · exact ⟨h, .refl _⟩
  · rename_i ops fail rest hs
    have hsc := h.sched
    have hst := h.still
    rw [hs] at hsc hst
    unfold allSched at hsc hst
    rw [List.all_cons, Bool.and_eq_true] at hsc
    have hst1 : ops.all keeps = true ∨ ∀ h, ¬ need h := by
      rcases hst with h | h
      · rw [List.all_cons, Bool.and_eq_true] at h; exact .inl h.1
      · exact .inr h
    have hst2 : allSched keeps rest = true ∨ ∀ h, ¬ need h := by
      rcases hst with h | h
      · rw [List.all_cons, Bool.and_eq_true] at h; exact .inl h.2
      · exact .inr h
    have := doIts_w ops h.k h.here h.kept hsc.1 hst1
    exact ⟨⟨this.1, this.2.1, this.2.2.1, hsc.2, hst2⟩, this.2.2.2⟩

theorem WInvN.cur {m : Bool} {seen : List Change} {w : World} (h : WInvN need m seen w) (c : Handle) : WInvN need m seen { w with cur := c } := ⟨h.k, h.here, h.kept, h.sched, h.still⟩

theorem mark_w {m : Bool} {seen : List Change} {w : World} (h : WInvN need m seen w) (p : Str) :
    WInvN need m seen ((sys rf).mark w p).2 ∧ Grows w.k ((sys rf).mark w p).2.k := by
  have ht := tick_w h
  simp only [sys]
  split
  · exact ht
  · split
    · exact ht
    · rename_i g hg
      exact ⟨⟨mark_kinv ht.1.k hg, ht.1.here, ht.1.kept, ht.1.sched, ht.1.still⟩, ht.2.trans ⟨List.prefix_rfl, List.prefix_rfl⟩⟩

theorem markSpec_w {m : Bool} {seen : List Change} {w : World} (h : WInvN need m seen w) (p : Str) :
    WInvN need m seen (Fa.markSpec (sys rf) p w).2 ∧ Grows w.k (Fa.markSpec (sys rf) p w).2.k ∧
    fileEvents ((Fa.markSpec (sys rf) p w).1.map Prod.fst) = [] := by
  have h1 : WInvN need m seen ((sys rf).realpath w p).2 ∧ Grows w.k ((sys rf).realpath w p).2.k := tick_w h
  unfold Fa.markSpec
  cases e1 : (sys rf).realpath w p with
  | mk a w1 =>
    rw [e1] at h1
    simp only at h1
    cases a with
    | none => exact ⟨h1.1, h1.2, by simp [fileEvents]⟩
    | some real =>
      have h2 : WInvN need m seen ((sys rf).isDir w1 real).2 ∧ Grows w1.k ((sys rf).isDir w1 real).2.k := tick_w h1.1
      simp only
      cases e2 : (sys rf).isDir w1 real with
      | mk b w2 =>
        rw [e2] at h2
        simp only at h2
        cases b with
        | false => exact ⟨h2.1, h1.2.trans h2.2, by simp [fileEvents]⟩
        | true =>
          have h3 := mark_w (rf := rf) h2.1 real
          simp only
          cases e3 : (sys rf).mark w2 real with
          | mk c w3 =>
            rw [e3] at h3
            simp only at h3
            cases c with
            | true => exact ⟨h3.1, (h1.2.trans h2.2).trans h3.2, rfl⟩
            | false => exact ⟨h3.1, (h1.2.trans h2.2).trans h3.2, by simp [fileEvents]⟩

/-- Looking up a record succeeds and gives a path its directory has or had. -/
theorem resolve_w {m : Bool} {seen : List Change} {w : World} (h : WInvN need m seen w) {r : FRec} (hn : okName r.name = true)
    (hkn : r.handle ∈ w.k.past.map (·.1)) (hneed : need r.handle) :
    ∃ d w', Fa.resolve (sys rf) r w = (some (d ++ b!"/" ++ r.name), w') ∧ WInvN need m seen w' ∧ Grows w.k w'.k ∧ (r.handle, d) ∈ w'.k.past := by
  have ht := tick_w h
  have hex : ∀ {k : K}, KInv k → Here need k → r.handle ∈ k.past.map (·.1) → ∃ q, k.dirs.lookup r.handle = some q := by
    intro k hk hh hm
    obtain ⟨e, h1, h2⟩ := List.mem_map.1 hm
    have := hh e h1 (by rw [h2]; exact hneed)
    obtain ⟨y, hy, hy2⟩ := List.mem_map.1 this
    exact ⟨y.2, by rw [← h2, ← hy2]; exact lookup_of_mem hk.handles hy⟩
  have hup : ∀ {k k' : K}, Grows k k' → r.handle ∈ k.past.map (·.1) → r.handle ∈ k'.past.map (·.1) := by
    intro k k' hg hm
    obtain ⟨e, h1, h2⟩ := List.mem_map.1 hm
    exact List.mem_map.2 ⟨e, hg.past.subset h1, h2⟩
  obtain ⟨q, hq⟩ := hex ht.1.k ht.1.here (hup ht.2 hkn)
  have e : (sys rf).openByHandle w r.handle = ((3, 0), { (tick w).2 with cur := r.handle }) := by simp only [sys, hq]
  have ht2 := tick_w (ht.1.cur r.handle)
  have hcur : (tick { (tick w).2 with cur := r.handle }).2.cur = r.handle := by
    unfold tick; split <;> rfl
  obtain ⟨d, hd⟩ := hex ht2.1.k ht2.1.here (hup ht2.2 (hup ht.2 hkn))
  have hm := ht2.1.k.past _ (lookup_mem' hd)
  have hs := ht2.1.k.pastShort _ hm
  refine ⟨d, (tick { (tick w).2 with cur := r.handle }).2, ?_, ht2.1, ht.2.trans ht2.2, hm⟩
  unfold Fa.resolve
  rw [e]
  simp only
  rw [if_neg (by decide)]
  simp only [sys, hcur, linkOf, hd]
  rw [clip_eq hs.1 (by have := hs.2; simp only at this; omega), if_neg (okName_facts hn).2.2.2]

theorem resolve2_w {m : Bool} {seen : List Change} {w : World} (h : WInvN need m seen w) {a b : FRec} (ha : okName a.name = true) (hb : okName b.name = true)
    (hka : a.handle ∈ w.k.past.map (·.1)) (hkb : b.handle ∈ w.k.past.map (·.1)) (hna : need a.handle) (hnb : need b.handle) :
    ∃ d d' w', Fa.resolve2 (sys rf) a b w = (some (d ++ b!"/" ++ a.name, d' ++ b!"/" ++ b.name), w') ∧ WInvN need m seen w' ∧ Grows w.k w'.k ∧
      (a.handle, d) ∈ w'.k.past ∧ (b.handle, d') ∈ w'.k.past := by
  have hup : ∀ {g : Handle} {k k' : K}, Grows k k' → g ∈ k.past.map (·.1) → g ∈ k'.past.map (·.1) := by
    intro g k k' hg hm
    obtain ⟨e, h1, h2⟩ := List.mem_map.1 hm
    exact List.mem_map.2 ⟨e, hg.past.subset h1, h2⟩
  unfold Fa.resolve2
  split
  · obtain ⟨d', w1, e1, i1, g1, p1⟩ := resolve_w (rf := rf) h hb hkb hnb
    obtain ⟨d, w2, e2, i2, g2, p2⟩ := resolve_w (rf := rf) i1 ha (hup g1 hka) hna
    rw [e1]
    simp only
    rw [e2]
    exact ⟨d, d', w2, rfl, i2, g1.trans g2, p2, g2.past.subset p1⟩
  · obtain ⟨d, w1, e1, i1, g1, p1⟩ := resolve_w (rf := rf) h ha hka hna
    obtain ⟨d', w2, e2, i2, g2, p2⟩ := resolve_w (rf := rf) i1 hb (hup g1 hkb) hnb
    rw [e1]
    simp only
    rw [e2]
    exact ⟨d, d', w2, rfl, i2, g1.trans g2, g2.past.subset p1, p2⟩

/-- What a batch about known directories is reported as. -/
theorem run_told {m : Bool} {seen : List Change} : ∀ (n : Nat) (rs : List FRec), rs.length ≤ n → ∀ {w : World}, WInvN need m seen w →
    (∀ r ∈ rs, Cov w.k.log w.k.past r) → (∀ r ∈ rs, need r.handle) →
    ∃ o w', Fa.run (sys rf) rs w = (o, w', .pending) ∧ WInvN need m seen w' ∧ Grows w.k w'.k ∧ RTold w'.k.past rs (fileEvents (o.map Prod.fst)) := by
  intro n
  induction n with
  | zero =>
    intro rs hl w hw _ _
    rw [List.length_eq_zero_iff.1 (Nat.le_zero.1 hl)]
    exact ⟨[], w, run_nil _ _, hw, .refl _, .nil⟩
  | succ n ih =>
    intro rs hl w hw hc hd
    cases rs with
    | nil => exact ⟨[], w, run_nil _ _, hw, .refl _, .nil⟩
    | cons r rest =>
      have hcr := hc r (by simp)
      by_cases hft : ∃ r2 rest2, rest = r2 :: rest2 ∧ r.fromTo r2 = true
      · obtain ⟨r2, rest2, rfl, hft⟩ := hft
        have hc2 := hc r2 (by simp)
        obtain ⟨d, d', w1, e1, i1, g1, p1, p2⟩ := resolve2_w (rf := rf) hw hcr.name hc2.name hcr.known hc2.known (hd r (by simp)) (hd r2 (by simp))
        obtain ⟨o, w', e2, i2, g2, t2⟩ := ih rest2 (by simp at hl; omega) i1 (fun x hx => (hc x (by simp [hx])).mono g1.log g1.past) (fun x hx => hd x (by simp [hx]))
        refine ⟨(⟨d ++ b!"/" ++ r.name, .rename, r.ptype, some ⟨d' ++ b!"/" ++ r2.name, .rename, r.ptype⟩⟩, w1) :: o, w', ?_, i2, g1.trans g2, ?_⟩
        · rw [run_pair _ _ hcr.over hft, e1]
          simp only [e2]
        · have hpt : r.ptype ≠ .watcher := by unfold FRec.ptype; split <;> simp
          have : fileEvents (((⟨d ++ b!"/" ++ r.name, .rename, r.ptype, some ⟨d' ++ b!"/" ++ r2.name, .rename, r.ptype⟩⟩, w1) :: o).map Prod.fst) =
              ⟨d ++ b!"/" ++ r.name, .rename, r.ptype, some ⟨d' ++ b!"/" ++ r2.name, .rename, r.ptype⟩⟩ :: fileEvents (o.map Prod.fst) := by
            simp [fileEvents, hpt]
          rw [this]
          exact .both hft (g2.past.subset p1) (g2.past.subset p2) t2
      · have hal : FAlone r rest := by
          intro r2 rest2 h
          cases hx : r.fromTo r2 with
          | false => rfl
          | true => exact absurd ⟨r2, rest2, h, hx⟩ hft
        obtain ⟨d, w1, e1, i1, g1, p1⟩ := resolve_w (rf := rf) hw hcr.name hcr.known (hd r (by simp))
        have hmk : ∃ mk, (if (r.created && r.onDir) = true then Fa.markSpec (sys rf) (d ++ b!"/" ++ r.name) w1 else ([], w1)) = mk ∧
            WInvN need m seen mk.2 ∧ Grows w1.k mk.2.k ∧ fileEvents (mk.1.map Prod.fst) = [] := by
          split
          · exact ⟨_, rfl, markSpec_w i1 _⟩
          · exact ⟨_, rfl, i1, .refl _, rfl⟩
        obtain ⟨mk, em, i2, g2, f2⟩ := hmk
        obtain ⟨o, w', e3, i3, g3, t3⟩ := ih rest (by simp at hl; omega) i2
          (fun x hx => (hc x (by simp [hx])).mono (g1.log.trans g2.log) (g1.past.trans g2.past)) (fun x hx => hd x (by simp [hx]))
        refine ⟨mk.1 ++ (⟨d ++ b!"/" ++ r.name, r.effect, r.ptype, none⟩, mk.2) :: o, w', ?_, i3, (g1.trans g2).trans g3, ?_⟩
        · rw [run_single _ _ hcr.over hal, e1]
          simp only [em, e3]
        · have hpt : r.ptype ≠ .watcher := by unfold FRec.ptype; split <;> simp
          rw [List.map_append, fileEvents_append, f2, List.nil_append]
          have : fileEvents (((⟨d ++ b!"/" ++ r.name, r.effect, r.ptype, none⟩, mk.2) :: o).map Prod.fst) =
              ⟨d ++ b!"/" ++ r.name, r.effect, r.ptype, none⟩ :: fileEvents (o.map Prod.fst) := by
            simp [fileEvents, hpt]
          rw [this]
          exact .one ((g2.trans g3).past.subset p1) t3

end Verif.Lemmas.FKer

namespace Verif.Lemmas.FKer
open Verif Verif.Model Verif.Model.Fa Verif.Model.FKer Verif.Spec Verif.Spec.FKer Verif.Lemmas.Fa

variable {rf : Bool} {need : Handle → Prop}

theorem At.mono {past past' : List (Handle × Str)} (h : past <+: past') {c : Change} {p : Str} (ha : Spec.FKer.At past c p) : Spec.FKer.At past' c p := by
  obtain ⟨d, h1, h2⟩ := ha
  exact ⟨d, h.subset h1, h2⟩

theorem Told.mono {past past' : List (Handle × Str)} (h : past <+: past') {cs : List Change} {es : List Ev} (ht : Told past cs es) : Told past' cs es := by
  induction ht with
  | nil => exact .nil
  | one a _ ih => exact .one (At.mono h a) ih
  | both a b c d _ ih => exact .both a b (At.mono h c) (At.mono h d) ih

theorem Told.append {past : List (Handle × Str)} {cs cs' : List Change} {es es' : List Ev} (h : Told past cs es) (h' : Told past cs' es') :
    Told past (cs ++ cs') (es ++ es') := by
  induction h with
  | nil => exact h'
  | one a _ ih => exact .one a ih
  | both a b c d _ ih => exact .both a b c d ih

theorem corr_from {c : Change} {r : FRec} (h : Corr c r) : r.movedFrom = true → c.kind = .moveFrom := by
  obtain ⟨who, rfl⟩ := h
  intro h
  have := recOf_bit c.handle c.kind c.name c.onDir who .moveFrom
  rw [show bitOf (recOf c.handle c.kind c.name c.onDir who) .moveFrom = true from h] at this
  exact of_decide_eq_true this.symm

theorem corr_to {c : Change} {r : FRec} (h : Corr c r) : r.movedTo = true → c.kind = .moveTo := by
  obtain ⟨who, rfl⟩ := h
  intro h
  have := recOf_bit c.handle c.kind c.name c.onDir who .moveTo
  rw [show bitOf (recOf c.handle c.kind c.name c.onDir who) .moveTo = true from h] at this
  exact of_decide_eq_true this.symm

theorem corr_effect {c : Change} {r : FRec} (h : Corr c r) : r.effect = effectDue c.kind ∧ r.ptype = typeOf c ∧ r.handle = c.handle ∧ r.name = c.name := by
  obtain ⟨who, rfl⟩ := h
  refine ⟨?_, ?_, rfl, rfl⟩
  · rw [recOf_effect]; cases c.kind <;> rfl
  · rw [recOf_ptype]; rfl

theorem rtold_told {past : List (Handle × Str)} {rs : List FRec} {es : List Ev} (h : RTold past rs es) :
    ∀ {cs : List Change}, Corrs cs rs → Told past cs es := by
  induction h with
  | nil => intro cs hc; cases hc; exact .nil
  | @one r l d es h1 _ ih =>
    intro cs hc
    cases hc with
    | @cons c _ cs _ hcr hcs =>
      obtain ⟨e1, e2, e3, e4⟩ := corr_effect hcr
      rw [e1, e2, e4]
      exact .one ⟨d, by rw [← e3]; exact h1, rfl⟩ (ih hcs)
  | @both a b l d d' es h0 h1 h2 _ ih =>
    intro cs hc
    cases hc with
    | @cons c _ cs _ hcr hcs =>
      cases hcs with
      | @cons c' _ cs _ hcr' hcs =>
        obtain ⟨e1, e2, e3, e4⟩ := corr_effect hcr
        obtain ⟨f1, f2, f3, f4⟩ := corr_effect hcr'
        simp only [FRec.fromTo, Bool.and_eq_true] at h0
        rw [e2, e4, f4]
        exact .both (corr_from hcr h0.1.2) (corr_to hcr' h0.2) ⟨d, by rw [← e3]; exact h1, rfl⟩ ⟨d', by rw [← f3]; exact h2, rfl⟩ (ih hcs)

theorem rtold_mentions {past : List (Handle × Str)} {rs : List FRec} {es : List Ev} (h : RTold past rs es) {r : FRec} (hr : r ∈ rs) :
    ∀ {c : Change}, r.handle = c.handle → r.name = c.name → ∃ e ∈ es, Mentions past c e := by
  induction h with
  | nil => cases hr
  | @one r' l d es h1 _ ih =>
    intro c g1 g2
    rcases List.mem_cons.1 hr with rfl | hr
    · exact ⟨_, List.mem_cons_self, .inl ⟨d, by rw [← g1]; exact h1, by rw [g2]⟩⟩
    · obtain ⟨e, he, hm⟩ := ih hr g1 g2
      exact ⟨e, List.mem_cons_of_mem _ he, hm⟩
  | @both a b l d d' es h0 h1 h2 _ ih =>
    intro c g1 g2
    rcases List.mem_cons.1 hr with rfl | hr
    · exact ⟨_, List.mem_cons_self, .inl ⟨d, by rw [← g1]; exact h1, by rw [g2]⟩⟩
    · rcases List.mem_cons.1 hr with rfl | hr
      · exact ⟨_, List.mem_cons_self, .inr ⟨_, rfl, d', by rw [← g1]; exact h2, by rw [g2]⟩⟩
      · obtain ⟨e, he, hm⟩ := ih hr g1 g2
        exact ⟨e, List.mem_cons_of_mem _ he, hm⟩

theorem Corrs.split {P : List Change} {q : List FRec} (h : Corrs P q) (n : Nat) : Corrs (P.take n) (q.take n) ∧ Corrs (P.drop n) (q.drop n) := by
  induction h generalizing n with
  | nil => simp; exact .nil
  | cons c h ih =>
    cases n with
    | zero => exact ⟨.nil, .cons c h⟩
    | succ n => exact ⟨.cons c (ih n).1, (ih n).2⟩

/-- What was said about the changes seen. -/
def Said (m : Bool) (past : List (Handle × Str)) (seen : List Change) (es : List Ev) : Prop :=
  if m then Told past seen es else ∀ c ∈ seen, ∃ e ∈ es, Mentions past c e

theorem Mentions.mono {past past' : List (Handle × Str)} (h : past <+: past') {c : Change} {e : Ev} (hm : Mentions past c e) : Mentions past' c e := by
  rcases hm with hm | ⟨a, h1, h2⟩
  · exact .inl (At.mono h hm)
  · exact .inr ⟨a, h1, At.mono h h2⟩

theorem Said.mono {m : Bool} {past past' : List (Handle × Str)} (h : past <+: past') {seen : List Change} {es : List Ev} (hs : Said m past seen es) :
    Said m past' seen es := by
  cases m with
  | true => exact Told.mono h hs
  | false =>
    intro c hc
    obtain ⟨e, h1, h2⟩ := (show ∀ c ∈ seen, ∃ e ∈ es, Mentions past c e from hs) c hc
    exact ⟨e, h1, Mentions.mono h h2⟩

/-- Taking `n` records: which changes they are about. -/
theorem kept_take {m : Bool} {seen : List Change} {k : K} (h : Kept m seen k) (n : Nat) :
    ∃ more, Kept m (seen ++ more) { k with queue := k.queue.drop n } ∧
      ∀ {past : List (Handle × Str)} {es : List Ev}, RTold past (k.queue.take n) es → ∀ {es0}, Said m past seen es0 → Said m past (seen ++ more) (es0 ++ es) := by
  cases m with
  | true =>
    obtain ⟨P, h1, h2⟩ := h
    refine ⟨P.take n, ⟨P.drop n, by simp only [h1, List.append_assoc, List.take_append_drop], (h2.split n).2⟩, ?_⟩
    intro past es hr es0 h0
    exact Told.append h0 (rtold_told hr (h2.split n).1)
  | false =>
    have h : ∀ c ∈ k.log, c ∈ seen ∨ ∃ r ∈ k.queue, r.handle = c.handle ∧ r.name = c.name := h
    refine ⟨k.log.filter (fun c => (k.queue.take n).any (fun r => r.handle == c.handle && r.name == c.name)), ?_, ?_⟩
    · intro c hc
      rcases h c hc with h | ⟨r, hr, h1, h2⟩
      · exact .inl (List.mem_append_left _ h)
      · rw [← List.take_append_drop n k.queue] at hr
        rcases List.mem_append.1 hr with hr | hr
        · refine .inl (List.mem_append_right _ (List.mem_filter.2 ⟨hc, ?_⟩))
          rw [List.any_eq_true]
          exact ⟨r, hr, by simp [h1, h2]⟩
        · exact .inr ⟨r, hr, h1, h2⟩
    · intro past es hr es0 h0 c hc
      rcases List.mem_append.1 hc with hc | hc
      · obtain ⟨e, h1, h2⟩ := (show ∀ c ∈ seen, ∃ e ∈ es0, Mentions past c e from h0) c hc
        exact ⟨e, List.mem_append_left _ h1, h2⟩
      · have := (List.mem_filter.1 hc).2
        rw [List.any_eq_true] at this
        obtain ⟨r, hr1, hr2⟩ := this
        simp only [Bool.and_eq_true, beq_iff_eq] at hr2
        obtain ⟨e, h1, h2⟩ := rtold_mentions hr hr1 hr2.1 hr2.2
        exact ⟨e, List.mem_append_right _ h1, h2⟩

/-- The state of a watch in the middle of such a history. -/
structure TInv (m : Bool) (st : Fa.St World) (seen : List Change) : Prop where
  k : KInv st.sys.k
  kept : Kept m seen st.sys.k
  buf : st.buf.length = 4096
  said : Said m st.sys.k.past seen (fileEvents (st.out.map Prod.fst))

theorem read_tinv {m : Bool} {st : Fa.St World} {seen : List Change} (h : TInv m st seen) (n : Nat) (sched : List (List Do × Bool))
    (hs : allSched (allowed m) sched = true) (hp : ∀ r ∈ st.sys.k.queue.take n, r.handle ∈ st.sys.k.dirs.map (·.1))
    (hn : NoSwap (st.sys.k.queue.take n)) (hr : Roomy (st.sys.k.queue.take n)) :
    ∃ st' seen', exec rf st (.read n sched) = .ok st' ∧ TInv m st' seen' := by
  simp only [exec]
  by_cases hfit : (fbatch (st.sys.k.queue.take n)).length ≤ bufLen
  · rw [if_pos hfit]
    obtain ⟨more, hk2, hsaid⟩ := kept_take h.kept n
    have hcov : ∀ r ∈ st.sys.k.queue.take n, Cov st.sys.k.log st.sys.k.past r := fun r hr => h.k.queue r (List.mem_of_mem_take hr)
    have hw : WInvN (· ∈ st.sys.k.dirs.map (·.1)) m (seen ++ more) { st.sys with k := { st.sys.k with queue := st.sys.k.queue.drop n }, sched := sched } :=
      ⟨take_kinv h.k n, fun _ _ h => h, hk2, (allSched_allowed hs).1, .inl (allSched_allowed hs).2⟩
    obtain ⟨o, w', e, iw, g, t⟩ := run_told (rf := rf) _ _ (Nat.le_refl _) hw hcov hp
    have hrun := recv_run (sys rf) (sound rf) _ ⟨fun r hr => (hcov r hr).wf, hfit⟩ hr hn
      { st with sys := { st.sys with k := { st.sys.k with queue := st.sys.k.queue.drop n }, sched := sched } } h.buf
    simp only [e] at hrun
    simp only [hrun, Outcome.bind_ok]
    rw [if_pos (by decide)]
    refine ⟨_, seen ++ more, rfl, iw.k, iw.kept, ?_, ?_⟩
    · have h1 := h.buf
      have h2 : bufLen = 4096 := rfl
      simp only [List.length_append, List.length_drop]
      omega
    · simp only
      rw [List.map_append, fileEvents_append]
      exact hsaid t (h.said.mono g.past)
  · rw [if_neg hfit]
    exact ⟨st, seen, rfl, h⟩

theorem op_tinv {m : Bool} {st : Fa.St World} {seen : List Change} (h : TInv m st seen) (x : Do) (hx : mild m x = true) :
    TInv m { st with sys := { st.sys with k := doIt st.sys.k x } } seen := by
  have := doIts_w (m := m) (seen := seen) (need := fun _ => False) [x] h.k (fun _ _ h => h.elim) h.kept (by simp [hx]) (.inr fun _ h => h)
  exact ⟨this.1, this.2.2.1, h.buf, h.said.mono this.2.2.2.past⟩

/-- The steps allowed. -/
def allowedStep (m : Bool) (s : Step) : Bool := allOps (mild m) s && allReads keeps s

theorem execs_tinv {m : Bool} (ss : List Step) : ∀ {st : Fa.St World} {seen : List Change}, TInv m st seen → ss.all (allowedStep m) = true → Fine rf st ss →
    Present rf st ss → ∃ st' seen', execs rf st ss = .ok st' ∧ TInv m st' seen' := by
  induction ss with
  | nil => intro st seen h _ _ _; exact ⟨st, seen, rfl, h⟩
  | cons s ss ih =>
    intro st seen h ha hf hp
    rw [List.all_cons, Bool.and_eq_true] at ha
    have ha1 := ha.1
    rw [allowedStep, Bool.and_eq_true] at ha1
    cases s with
    | op x =>
      obtain ⟨st', seen', h1, h2⟩ := ih (op_tinv h x ha1.1) ha.2 (hf _ rfl) (hp _ rfl)
      exact ⟨st', seen', by rw [execs]; exact h1, h2⟩
    | read n sched =>
      obtain ⟨st1, seen1, h1, h2⟩ := read_tinv (rf := rf) h n sched (allowed_and ha1.1 ha1.2) hp.1 hf.1 hf.2.1
      obtain ⟨st', seen', h3, h4⟩ := ih h2 ha.2 (hf.2.2 _ h1) (hp.2 _ h1)
      exact ⟨st', seen', by rw [execs, h1]; exact h3, h4⟩

theorem doMark_markSpec {σ} (S : Fa.Sys σ) (p : Str) (st : Fa.St σ) :
    (doMark S p st).1 = { st with sys := (Fa.markSpec S p st.sys).2, out := st.out ++ (Fa.markSpec S p st.sys).1 } := by
  unfold Fa.doMark Fa.markSpec
  cases h1 : S.realpath st.sys p with
  | mk a w =>
    cases a with
    | none => simp only [St.send]; rfl
    | some real =>
      simp only
      cases h2 : S.isDir w real with
      | mk b w =>
        cases b with
        | false => simp only [St.send]; rfl
        | true =>
          simp only
          cases h3 : S.mark w real with
          | mk c w => cases c <;> simp [St.send, sendMsg] <;> rfl

theorem opened_tinv {m : Bool} {dirs : List (Handle × Str)} (hg : GoodTree dirs) (marks : List Str) (sched : List (List Do × Bool))
    (hs : allSched (mild m) sched = true) : TInv m (opened rf dirs marks sched) [] := by
  have key : ∀ (ms : List Str) (st : Fa.St World), WInvN (fun _ => False) m [] st.sys → st.buf.length = 4096 → fileEvents (st.out.map Prod.fst) = [] →
      ∃ st', ms.foldl (fun st d => (doMark (sys rf) d st).1) st = st' ∧ WInvN (fun _ => False) m [] st'.sys ∧ st'.buf.length = 4096 ∧ fileEvents (st'.out.map Prod.fst) = [] := by
    intro ms
    induction ms with
    | nil => intro st a b c; exact ⟨st, rfl, a, b, c⟩
    | cons p ms ih =>
      intro st a b c
      rw [List.foldl_cons]
      have hm := markSpec_w (rf := rf) a p
      have he : (doMark (sys rf) p st).1 = { st with sys := (Fa.markSpec (sys rf) p st.sys).2, out := st.out ++ (Fa.markSpec (sys rf) p st.sys).1 } :=
        doMark_markSpec _ _ _
      rw [he]
      refine ih _ hm.1 b ?_
      simp only
      rw [List.map_append, fileEvents_append, c, hm.2.2]
      rfl
  obtain ⟨st, h1, h2, h3, h4⟩ := key marks { buf := List.replicate bufLen 0, sys := { k := { dirs := dirs, past := dirs }, sched := sched } }
    ⟨kinv_open hg, fun _ _ h => h.elim, by
      cases m with
      | true => exact ⟨[], rfl, .nil⟩
      | false => (intro c hc; cases hc), hs, .inr fun _ h => h⟩ List.length_replicate rfl
  unfold opened
  rw [h1]
  refine ⟨h2.k, h2.kept, h3, ?_⟩
  rw [h4]
  cases m with
  | true => exact Told.nil
  | false => intro c hc; cases hc

end Verif.Lemmas.FKer
