import Verif.Lemmas.Inotify
/-! The specification function `report`, rule by rule, and what follows from it. -/
namespace Verif.Lemmas.In
open Verif Verif.Model Verif.Model.In Verif.Spec Verif.Lemmas

/-- The marking part of a single report. -/
def markOf {σ} (S : Sys σ) (r : Rec) (dir : Str) (t : Table) (w : σ) : List Ev × Table × σ :=
  if r.created && r.onDir then markSpec S (entryPath dir r.name) t w else ([], t, w)

/-- The next record is not the other half. -/
def Alone (r : Rec) (rest : List Rec) : Prop := ∀ r2 rest2, rest = r2 :: rest2 → ¬ r.renamedTo r2 = true

theorem report_nil {σ} (S : Sys σ) (t : Table) (w : σ) : report S [] t w = ([], t, w) := by simp [report]

theorem report_unknown {σ} (S : Sys σ) {r : Rec} (rest : List Rec) {t : Table} (w : σ) (h : t.lookup r.wd = none) :
    report S (r :: rest) t w = (phantomMsg :: (report S rest t w).1, (report S rest t w).2) := by
  rw [report, h]

theorem report_silent {σ} (S : Sys σ) {r : Rec} (rest : List Rec) {t : Table} (w : σ) {dir} (h : t.lookup r.wd = some dir)
    (hr : r.reportable = false) : report S (r :: rest) t w = report S rest t w := by
  rw [report, h]; simp [hr]

theorem report_pair {σ} (S : Sys σ) {r r2 : Rec} (rest : List Rec) {t : Table} (w : σ) {dir} (h : t.lookup r.wd = some dir)
    (hr : r.reportable = true) (h2 : r.renamedTo r2 = true) :
    report S (r :: r2 :: rest) t w = (pairEvent r r2 dir dir :: (report S rest t w).1, (report S rest t w).2) := by
  rw [report, h]; simp [hr, h2]

theorem report_single {σ} (S : Sys σ) {r : Rec} {rest : List Rec} {t : Table} (w : σ) {dir} (h : t.lookup r.wd = some dir)
    (hr : r.reportable = true) (h2 : Alone r rest) :
    report S (r :: rest) t w = ((markOf S r dir t w).1 ++ r.event dir ::
      (report S rest (markOf S r dir t w).2.1 (markOf S r dir t w).2.2).1,
      (report S rest (markOf S r dir t w).2.1 (markOf S r dir t w).2.2).2) := by
  rw [report, h]
  simp only [hr, Bool.not_true, Bool.false_eq_true, if_false]
  cases rest with
  | nil => simp [markOf]
  | cons r2 rest => simp [h2 r2 rest rfl, markOf]

theorem alone_or (r : Rec) (rest : List Rec) : Alone r rest ∨ ∃ r2 rest2, rest = r2 :: rest2 ∧ r.renamedTo r2 = true := by
  cases rest with
  | nil => left; intro _ _ h; cases h
  | cons r2 rest =>
    by_cases h : r.renamedTo r2 = true
    · right; exact ⟨_, _, rfl, h⟩
    · left; intro a b hab; cases hab; exact h

theorem file_append (a b : List Ev) : fileEvents (a ++ b) = fileEvents a ++ fileEvents b := List.filter_append ..

theorem mark_warn {σ} (S : Sys σ) (p : Str) (t : Table) (w : σ) :
    (markSpec S p t w).1 = [] ∨
    (markSpec S p t w).1 = [{ path := b!"w/sys/not_watched@" ++ p, effect := .other, ptype := .watcher }] := by
  unfold markSpec
  simp only
  split
  · exact .inr rfl
  · split
    · exact .inr rfl
    · split
      · exact .inl rfl
      · exact .inr rfl

theorem markOf_file {σ} (S : Sys σ) (r : Rec) (d : Str) (t : Table) (w : σ) : fileEvents (markOf S r d t w).1 = [] := by
  unfold markOf
  split
  · rcases mark_warn S (entryPath d r.name) t w with h | h <;> rw [h] <;> rfl
  · rfl

/-- Marking never changes what is known. -/
theorem mark_keeps {σ} (S : Sys σ) (p : Str) (t : Table) (w : σ) (wd : Int) (d : Str) (h : t.lookup wd = some d) :
    (markSpec S p t w).2.1.lookup wd = some d := by
  unfold markSpec
  simp only
  split
  · exact h
  · split
    · exact h
    · split
      · simp only
        split
        · rename_i hn
          rw [List.lookup_cons]
          split
          · rename_i hb
            simp at hb; subst hb; rw [hn] at h; cases h
          · exact h
        · exact h
      · exact h

theorem markOf_keeps {σ} (S : Sys σ) (r : Rec) (d' : Str) (t : Table) (w : σ) (wd : Int) (d : Str) (h : t.lookup wd = some d) :
    (markOf S r d' t w).2.1.lookup wd = some d := by
  unfold markOf
  split
  · exact mark_keeps S _ t w wd d h
  · exact h

theorem event_file (r : Rec) (d : Str) : (r.event d).ptype ≠ .watcher := by
  simp [Rec.event, Rec.ptype]; split <;> simp

theorem pair_file (r r2 : Rec) (d d2 : Str) : (pairEvent r r2 d d2).ptype ≠ .watcher := by
  simp [pairEvent, Rec.ptype]; split <;> simp

theorem file_cons_event (r : Rec) (d : Str) (l : List Ev) : fileEvents (r.event d :: l) = r.event d :: fileEvents l := by
  have := event_file r d
  simp [fileEvents, this]

theorem file_cons_pair (r r2 : Rec) (d d2 : Str) (l : List Ev) :
    fileEvents (pairEvent r r2 d d2 :: l) = pairEvent r r2 d d2 :: fileEvents l := by
  have := pair_file r r2 d d2
  simp [fileEvents, this]

theorem file_cons_phantom (l : List Ev) : fileEvents (phantomMsg :: l) = fileEvents l := by
  simp [fileEvents, phantomMsg]

/-- `due` depends on the table only through the directories of the batch's records. -/
theorem due_congr (t t' : Table) : ∀ (n : Nat) (rs : List Rec), rs.length ≤ n →
    (∀ r ∈ rs, t.lookup r.wd = t'.lookup r.wd) → due t rs = due t' rs := by
  intro n
  induction n with
  | zero => intro rs h _; rw [List.length_eq_zero_iff.1 (by omega : rs.length = 0)]; rfl
  | succ n ih =>
    intro rs hn h
    cases rs with
    | nil => rfl
    | cons r rest =>
      simp only [List.length_cons] at hn
      have e := h r (by simp)
      unfold due
      rw [ih rest (by omega) (fun x hx => h x (by simp [hx])), e]
      cases rest with
      | nil => rfl
      | cons r2 rest2 =>
        simp only [List.length_cons] at hn
        simp only
        rw [ih rest2 (by omega) (fun x hx => h x (by simp [hx])),
          ih (r2 :: rest2) (by simp; omega) (fun x hx => h x (by simp [hx]))]

theorem report_due {σ} (S : Sys σ) : ∀ (n : Nat) (rs : List Rec), rs.length ≤ n → ∀ (t : Table) (w : σ),
    AllKnown t rs → fileEvents (report S rs t w).1 = due t rs := by
  intro n
  induction n with
  | zero => intro rs h t w _; rw [List.length_eq_zero_iff.1 (by omega : rs.length = 0)]; simp [report_nil, fileEvents, due]
  | succ n ih =>
    intro rs hn t w hk
    cases rs with
    | nil => simp [report_nil, fileEvents, due]
    | cons r rest =>
      simp only [List.length_cons] at hn
      obtain ⟨d, hd⟩ := hk r (by simp)
      have hk' : AllKnown t rest := fun x hx => hk x (by simp [hx])
      unfold due
      by_cases hr : r.reportable = true
      · rcases alone_or r rest with h | ⟨r2, rest2, rfl, h⟩
        · rw [report_single S w hd hr h]
          rw [file_append, markOf_file, List.nil_append, file_cons_event]
          have hk2 : AllKnown (markOf S r d t w).2.1 rest := fun x hx => by
            obtain ⟨d', hd'⟩ := hk' x hx
            exact ⟨d', markOf_keeps S r d t w _ _ hd'⟩
          rw [ih rest (by omega) _ _ hk2]
          have := due_congr (markOf S r d t w).2.1 t n rest (by omega) (fun x hx => by
            obtain ⟨d', hd'⟩ := hk' x hx
            rw [hd', markOf_keeps S r d t w _ _ hd'])
          rw [this]
          cases rest with
          | nil => simp [hr, hd, due]
          | cons r2 rest2 => simp [hr, hd, h r2 rest2 rfl]
        · rw [report_pair S rest2 w hd hr h, file_cons_pair]
          simp only [List.length_cons] at hn
          rw [ih rest2 (by omega) t w (fun x hx => hk' x (by simp [hx]))]
          simp [hr, hd, h]
      · have hr' : r.reportable = false := by simpa using hr
        rw [report_silent S rest w hd hr', ih rest (by omega) t w hk']
        simp [hr']

/-- A batch can be cut wherever the cut does not separate two halves of a rename. -/
theorem report_split {σ} (S : Sys σ) (post : List Rec) : ∀ (n : Nat) (pre : List Rec), pre.length ≤ n →
    (∀ x ∈ pre, Alone x post) → ∀ (t : Table) (w : σ),
    report S (pre ++ post) t w =
      ((report S pre t w).1 ++ (report S post (report S pre t w).2.1 (report S pre t w).2.2).1,
       (report S post (report S pre t w).2.1 (report S pre t w).2.2).2) := by
  intro n
  induction n with
  | zero =>
    intro pre h _ t w
    rw [List.length_eq_zero_iff.1 (by omega : pre.length = 0)]; simp [report_nil]
  | succ n ih =>
    intro pre hn hal t w
    cases pre with
    | nil => simp [report_nil]
    | cons r rest =>
      simp only [List.length_cons] at hn
      have hal' : ∀ x ∈ rest, Alone x post := fun x hx => hal x (by simp [hx])
      rw [List.cons_append]
      cases hd : t.lookup r.wd with
      | none => rw [report_unknown S _ w hd, report_unknown S _ w hd, ih rest (by omega) hal']; rfl
      | some d =>
        by_cases hr : r.reportable = true
        · rcases alone_or r rest with h | ⟨r2, rest2, rfl, h⟩
          · have h' : Alone r (rest ++ post) := by
              cases rest with
              | nil => exact hal r (by simp)
              | cons a rest => intro x y e; simp at e; rw [← e.1]; exact h a rest rfl
            rw [report_single S w hd hr h', report_single S w hd hr h, ih rest (by omega) hal']
            simp
          · simp only [List.length_cons] at hn
            rw [List.cons_append, report_pair S _ w hd hr h, report_pair S _ w hd hr h,
              ih rest2 (by omega) (fun x hx => hal' x (by simp [hx]))]
            rfl
        · have hr' : r.reportable = false := by simpa using hr
          rw [report_silent S _ w hd hr', report_silent S _ w hd hr', ih rest (by omega) hal']

theorem report_keeps {σ} (S : Sys σ) (wd : Int) (d : Str) : ∀ (n : Nat) (rs : List Rec), rs.length ≤ n →
    ∀ (t : Table) (w : σ), t.lookup wd = some d → (report S rs t w).2.1.lookup wd = some d := by
  intro n
  induction n with
  | zero => intro rs h t w hk; rw [List.length_eq_zero_iff.1 (by omega : rs.length = 0)]; simpa [report_nil]
  | succ n ih =>
    intro rs hn t w hk
    cases rs with
    | nil => simpa [report_nil]
    | cons r rest =>
      simp only [List.length_cons] at hn
      cases hd : t.lookup r.wd with
      | none => rw [report_unknown S _ w hd]; exact ih rest (by omega) t w hk
      | some d' =>
        by_cases hr : r.reportable = true
        · rcases alone_or r rest with h | ⟨r2, rest2, rfl, h⟩
          · rw [report_single S w hd hr h]
            exact ih rest (by omega) _ _ (markOf_keeps S r d' t w wd d hk)
          · simp only [List.length_cons] at hn
            rw [report_pair S _ w hd hr h]; exact ih rest2 (by omega) t w hk
        · rw [report_silent S _ w hd (by simpa using hr)]; exact ih rest (by omega) t w hk

theorem report_sound {σ} (S : Sys σ) (hS : SoundSys S) : ∀ (n : Nat) (rs : List Rec), rs.length ≤ n →
    ∀ (t : Table) (w : σ), SoundTable t → SoundTable (report S rs t w).2.1 := by
  intro n
  induction n with
  | zero => intro rs h t w hk; rw [List.length_eq_zero_iff.1 (by omega : rs.length = 0)]; simpa [report_nil]
  | succ n ih =>
    intro rs hn t w hk
    cases rs with
    | nil => simpa [report_nil]
    | cons r rest =>
      simp only [List.length_cons] at hn
      cases hd : t.lookup r.wd with
      | none => rw [report_unknown S _ w hd]; exact ih rest (by omega) t w hk
      | some d' =>
        by_cases hr : r.reportable = true
        · rcases alone_or r rest with h | ⟨r2, rest2, rfl, h⟩
          · rw [report_single S w hd hr h]
            refine ih rest (by omega) _ _ ?_
            unfold markOf
            split
            · exact markSpec_sound S hS _ _ _ hk
            · exact hk
          · simp only [List.length_cons] at hn
            rw [report_pair S _ w hd hr h]; exact ih rest2 (by omega) t w hk
        · rw [report_silent S _ w hd (by simpa using hr)]; exact ih rest (by omega) t w hk

/-- What can be in the output: file events of the batch's records, phantom and not-watched warnings. -/
def Origin (rs : List Rec) (e : Ev) : Prop :=
  e = phantomMsg ∨
  (∃ p, e = { path := b!"w/sys/not_watched@" ++ p, effect := .other, ptype := .watcher }) ∨
  (∃ r ∈ rs, ∃ d, r.reportable = true ∧ e = r.event d) ∨
  (∃ r ∈ rs, ∃ r2 ∈ rs, ∃ d, r.reportable = true ∧ r.renamedTo r2 = true ∧ e = pairEvent r r2 d d)

theorem origin_mono {rs rs' : List Rec} (h : ∀ r ∈ rs, r ∈ rs') {e} (ho : Origin rs e) : Origin rs' e := by
  rcases ho with h1 | h1 | ⟨r, hr, d, h1⟩ | ⟨r, hr, r2, hr2, d, h1⟩
  · exact .inl h1
  · exact .inr (.inl h1)
  · exact .inr (.inr (.inl ⟨r, h r hr, d, h1⟩))
  · exact .inr (.inr (.inr ⟨r, h r hr, r2, h r2 hr2, d, h1⟩))

theorem report_origin {σ} (S : Sys σ) : ∀ (n : Nat) (rs : List Rec), rs.length ≤ n →
    ∀ (t : Table) (w : σ), ∀ e ∈ (report S rs t w).1, Origin rs e := by
  intro n
  induction n with
  | zero => intro rs h t w e he; rw [List.length_eq_zero_iff.1 (by omega : rs.length = 0), report_nil] at he; cases he
  | succ n ih =>
    intro rs hn t w e he
    cases rs with
    | nil => rw [report_nil] at he; cases he
    | cons r rest =>
      simp only [List.length_cons] at hn
      have sub : ∀ x ∈ rest, x ∈ r :: rest := fun x hx => List.mem_cons_of_mem _ hx
      cases hd : t.lookup r.wd with
      | none =>
        rw [report_unknown S _ w hd] at he
        rcases List.mem_cons.1 he with rfl | he
        · exact .inl rfl
        · exact origin_mono sub (ih rest (by omega) t w e he)
      | some d' =>
        by_cases hr : r.reportable = true
        · rcases alone_or r rest with h | ⟨r2, rest2, rfl, h⟩
          · rw [report_single S w hd hr h] at he
            rcases List.mem_append.1 he with he | he
            · unfold markOf at he
              split at he
              · rcases mark_warn S (entryPath d' r.name) t w with h | h <;> rw [h] at he
                · cases he
                · simp at he; exact .inr (.inl ⟨_, he⟩)
              · cases he
            · rcases List.mem_cons.1 he with rfl | he
              · exact .inr (.inr (.inl ⟨r, by simp, d', hr, rfl⟩))
              · exact origin_mono sub (ih rest (by omega) _ _ e he)
          · simp only [List.length_cons] at hn
            rw [report_pair S _ w hd hr h] at he
            rcases List.mem_cons.1 he with rfl | he
            · exact .inr (.inr (.inr ⟨r, by simp, r2, by simp, d', hr, h, rfl⟩))
            · exact origin_mono (fun x hx => by simp [hx]) (ih rest2 (by omega) t w e he)
        · rw [report_silent S _ w hd (by simpa using hr)] at he
          exact origin_mono sub (ih rest (by omega) t w e he)

theorem erase_fold (l : List Int) : ∀ t : Table, l.foldl Table.erase t = without t l := by
  induction l with
  | nil => intro t; simpa [without] using (List.filter_eq_self.2 (by simp)).symm
  | cons x l ih =>
    intro t
    rw [List.foldl_cons, ih]
    unfold without Table.erase
    rw [List.filter_filter]
    apply List.filter_congr
    intro e _
    simp only [List.contains_cons, Bool.not_or, Bool.and_comm]
    rfl

theorem batch_count : ∀ rs : List Rec, 16 * rs.length ≤ (batch rs).length := by
  intro rs
  induction rs with
  | nil => simp [batch]
  | cons r rs ih => rw [batch_cons, List.length_append, rec_length, List.length_cons]; omega

theorem batch_length (rs : List Rec) : (batch rs).length = (rs.map (fun r => 16 + (r.name.length + r.pad))).sum := by
  induction rs with
  | nil => rfl
  | cons r rs ih => rw [batch_cons, List.length_append, rec_length, ih]; rfl

/-- The whole of `do_ev_recv` on a kernel batch. -/
theorem recv_eq {σ} (S : Sys σ) (hS : SoundSys S) (rs : List Rec) (hb : Batch rs) (st : St σ) (ht : SoundTable st.dm) :
    doEvRecv S (.data (batch rs)) st = .ok ({
      dm := without (report S rs st.dm st.sys).2.1 (gone rs), rm := [],
      sys := (report S rs st.dm st.sys).2.2, out := st.out ++ (report S rs st.dm st.sys).1 }, .pending) := by
  have hc := batch_count rs
  have hf := hb.fits
  have h256 : cUlim = 256 := rfl
  unfold doEvRecv
  cases rs with
  | nil =>
    simp [batch, loop, flushRm, report_nil, gone, without]
    exact (List.filter_eq_self.2 (by simp)).symm
  | cons r rs =>
    have := loop_rec S hS _ (r :: rs) (Nat.le_refl _) [] (batch (r :: rs)) (cUlim + 1)
      { st with rm := [] } rfl hb.wf hb.ordered ht (by omega) (by simp only [bufLen, List.length_nil]; omega)
    have ho : offOf [] (r :: rs) = some 0 := by simp [offOf]
    rw [ho] at this
    simp only [this, Outcome.bind_ok, Outcome.pure_eq, List.nil_append, flushRm, erase_fold]

end Verif.Lemmas.In
