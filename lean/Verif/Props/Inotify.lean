import Verif.Lemmas.Inotify2
/-!
# Properties of reading inotify batches (C25 - C30)
-/

namespace Verif.Props
open Verif Verif.Model Verif.Model.In Verif.Spec Verif.Lemmas.In

/-! A system and a batch used to show that the hypotheses can be met: the table knows `/r` (1) and
`/r/d` (2); the batch has a new file, an access, a rename inside `/r`, a new directory `/r/n` (which
becomes watch 3), the end of watch 2 and a queue overflow. -/

private def demoSys : Sys Nat where
  realpath n p := (some p, n + 1)
  isDir n _ := (true, n + 1)
  addWatch n _ := (3, n + 1)

private def demoTable : Table := [(1, b!"/r"), (2, b!"/r/d")]

private def demoRecs : List Rec :=
  [ { wd := 1, mask := 0x100#32, name := b!"f", pad := 15 },
    { wd := 2, mask := 0x1#32, name := b!"g", pad := 15 },
    { wd := 1, mask := 0x40#32, cookie := 7#32, name := b!"f", pad := 15 },
    { wd := 1, mask := 0x80#32, cookie := 7#32, name := b!"g", pad := 15 },
    { wd := 1, mask := 0x40000100#32, name := b!"n", pad := 15 },
    { wd := 2, mask := 0x400#32 },
    { wd := 2, mask := 0x8000#32 },
    { wd := -1, mask := 0x4000#32 } ]

private theorem demoSys_sound : SoundSys (σ := Nat) { demoSys with realpath := fun n p => (some (b!"/r/n"), n + p.length) } := by
  intro w p real h
  simp at h
  subst h
  exact ⟨by decide, by decide⟩

private def demoS : Sys Nat := { demoSys with realpath := fun n p => (some (b!"/r/n"), n + p.length) }
private theorem demoS_sound : SoundSys demoS := demoSys_sound

private theorem demoTable_sound : SoundTable demoTable := by
  intro e he
  simp [demoTable] at he
  rcases he with rfl | rfl
  · exact ⟨by decide, by decide, by decide⟩
  · exact ⟨by decide, by decide, by decide⟩

private theorem demo_batch : Batch demoRecs where
  wf := by
    intro r hr
    simp only [demoRecs, List.mem_cons, List.not_mem_nil, or_false] at hr
    rcases hr with rfl | rfl | rfl | rfl | rfl | rfl | rfl | rfl <;>
      exact ⟨by decide, by decide, by decide, by decide, by decide, by decide, by decide, by decide⟩
  fits := by rw [batch_length]; decide
  ordered := by simp [demoRecs, Ordered, Rec.movedTo, Rec.movedFrom, Rec.bit]

private def demoSt : St Nat := { dm := demoTable, sys := 0 }

/-! ## C25 -/

/-- C25. For every batch the kernel can put into the buffer, every sound watch table and every behaviour
of the file system in the meantime, reading the batch looks only at bytes the kernel wrote (anything else
is the outcome `ub` of the model), ends, and answers `pending`: neither the record limit nor the limit of
the deferred removals is ever hit. The table stays sound. -/
theorem C25_batch_safe {σ} (S : Sys σ) (hS : SoundSys S) (rs : List Rec) (hb : Batch rs) (st : St σ)
    (ht : SoundTable st.dm) :
    ∃ st', doEvRecv S (.data (batch rs)) st = .ok (st', .pending) ∧ SoundTable st'.dm := by
  refine ⟨_, recv_eq S hS rs hb st ht, ?_⟩
  intro e he
  have := report_sound S hS _ rs (Nat.le_refl _) st.dm st.sys ht
  exact this e ((List.mem_filter.1 he).1)

/-- C25, for ever: any number of batches one after the other, starting from the table that opening the
watch made, whatever directories the walk found. -/
theorem C25_forever {σ} (S : Sys σ) (hS : SoundSys S) (dirs : List Str) (st0 : St σ)
    (bs : List (List Rec)) (hb : ∀ rs ∈ bs, Batch rs) :
    ∃ st', serve S bs (makeDm S dirs st0).1 = .ok (st', .pending) ∧ SoundTable st'.dm := by
  have h0 : SoundTable (makeDm S dirs st0).1.dm := by
    have : ∀ (ds : List Str) (st : St σ), SoundTable st.dm →
        SoundTable (ds.foldl (fun st d => (doMark S d st).1) st).dm := by
      intro ds
      induction ds with
      | nil => intro st h; exact h
      | cons d ds ih =>
        intro st h
        refine ih _ ?_
        simp only [doMark_eq]
        exact markSpec_sound S hS d _ _ h
    exact this dirs { st0 with dm := [] } (fun e he => by cases he)
  generalize (makeDm S dirs st0).1 = st at h0
  induction bs generalizing st with
  | nil => exact ⟨st, rfl, h0⟩
  | cons rs bs ih =>
    obtain ⟨st1, h1, h2⟩ := C25_batch_safe S hS rs (hb rs (by simp)) st h0
    obtain ⟨st2, h3, h4⟩ := ih (fun x hx => hb x (by simp [hx])) st1 h2
    refine ⟨st2, ?_, h4⟩
    simp only [serve, h1, Outcome.bind_ok]
    rw [if_pos (by decide)]
    exact h3

/-- C25: a batch never has more records than the limit the code compares with. -/
theorem C25_record_count (rs : List Rec) (hb : Batch rs) : rs.length ≤ 256 := by
  have := batch_count rs
  have := hb.fits
  omega

/-- C25: without data the watcher goes on; only a failing read ends it. -/
theorem C25_no_data {σ} (S : Sys σ) (st : St σ) :
    doEvRecv S (.err true) st = .ok (st, .pending) ∧ doEvRecv S (.err false) st = .ok (st, .eRead) ∧
    doEvRecv S (.data []) st = .ok ({ st with rm := [] }, .pending) := by
  refine ⟨rfl, rfl, ?_⟩
  simp [doEvRecv, loop, flushRm]

example : ∃ st', doEvRecv demoS (.data (batch demoRecs)) demoSt = .ok (st', .pending) ∧ SoundTable st'.dm :=
  C25_batch_safe demoS demoS_sound demoRecs demo_batch demoSt demoTable_sound

/-! ## C26 -/

/-- C26. The callback receives exactly the report of the batch (`Spec.report`: in kernel order, one
warning for each record of an unknown watch, nothing for records that report nothing, one event for both
halves of a rename, one event for every other record, preceded by the marking of a new directory), and
afterwards the table has lost exactly the directories whose end the batch reported. -/
theorem C26_batch_exact {σ} (S : Sys σ) (hS : SoundSys S) (rs : List Rec) (hb : Batch rs) (st : St σ)
    (ht : SoundTable st.dm) :
    doEvRecv S (.data (batch rs)) st = .ok ({
      dm := without (report S rs st.dm st.sys).2.1 (gone rs), rm := [],
      sys := (report S rs st.dm st.sys).2.2, out := st.out ++ (report S rs st.dm st.sys).1 }, .pending) :=
  recv_eq S hS rs hb st ht

/-- C26, when all watches are known: the events about files and directories are exactly those due
(`Spec.due`), in kernel order, and everything else delivered is a `not_watched` warning. -/
theorem C26_known_batch {σ} (S : Sys σ) (hS : SoundSys S) (rs : List Rec) (hb : Batch rs) (st : St σ)
    (ht : SoundTable st.dm) (hk : AllKnown st.dm rs) :
    ∃ st' o, doEvRecv S (.data (batch rs)) st = .ok (st', .pending) ∧ st'.out = st.out ++ o ∧
      fileEvents o = due st.dm rs :=
  ⟨_, _, recv_eq S hS rs hb st ht, rfl, report_due S _ rs (Nat.le_refl _) st.dm st.sys hk⟩

/-- C26, no inventions, for every batch: whatever is delivered is a warning (`phantom` or `not_watched`)
or the event of a reportable record of the batch or of two of its records that are the halves of one
rename, and the directory in its paths is one the table knew or learnt. -/
theorem C26_no_inventions {σ} (S : Sys σ) (hS : SoundSys S) (rs : List Rec) (hb : Batch rs) (st : St σ)
    (ht : SoundTable st.dm) :
    ∃ st' o, doEvRecv S (.data (batch rs)) st = .ok (st', .pending) ∧ st'.out = st.out ++ o ∧
      ∀ e ∈ o, e = phantomMsg ∨
        (∃ p, e = { path := b!"w/sys/not_watched@" ++ p, effect := .other, ptype := .watcher }) ∨
        (∃ r ∈ rs, ∃ d, r.reportable = true ∧ e = r.event d) ∨
        (∃ r ∈ rs, ∃ r2 ∈ rs, ∃ d, r.reportable = true ∧ r.renamedTo r2 = true ∧ e = pairEvent r r2 d d) :=
  ⟨_, _, recv_eq S hS rs hb st ht, rfl, report_origin S _ rs (Nat.le_refl _) st.dm st.sys⟩

/-- The demo batch, worked out. -/
example : ∃ st', doEvRecv demoS (.data (batch demoRecs)) demoSt = .ok (st', .pending) ∧
    st'.out = [
      { path := b!"/r/f", effect := .create, ptype := .file },
      { path := b!"/r/f", effect := .rename, ptype := .file,
        assoc := some { path := b!"/r/g", effect := .rename, ptype := .file } },
      { path := b!"/r/n", effect := .create, ptype := .dir },
      { path := b!"w/sys/phantom@", effect := .other, ptype := .watcher }] ∧
    st'.dm = [(3, b!"/r/n"), (1, b!"/r")] := by
  refine ⟨_, C26_batch_exact demoS demoS_sound demoRecs demo_batch demoSt demoTable_sound, ?_, ?_⟩ <;> decide

example : AllKnown demoTable (demoRecs.take 7) ∧ (due demoTable (demoRecs.take 7)).length = 3 := by
  refine ⟨?_, by decide⟩
  intro r hr
  simp only [demoRecs, List.take_succ_cons, List.take_zero, List.mem_cons, List.not_mem_nil, or_false] at hr
  rcases hr with rfl | rfl | rfl | rfl | rfl | rfl | rfl <;>
    first | exact ⟨b!"/r", by decide⟩ | exact ⟨b!"/r/d", by decide⟩

/-! ## C27 -/

private theorem reportable_iff (r : Rec) : r.reportable = true ↔ EntryBits r.mask ∧ ¬ SelfBits r.mask := by
  simp only [Rec.reportable, Rec.created, Rec.deleted, Rec.modified, Rec.movedFrom, Rec.movedTo,
    Rec.ignored, Rec.deleteSelf, Rec.moveSelf, Rec.bit, EntryBits, SelfBits, Bool.and_eq_true,
    Bool.or_eq_true, Bool.not_eq_true', Bool.or_eq_false_iff]
  constructor
  · rintro ⟨h1, h2⟩
    refine ⟨?_, ?_⟩
    · rcases h1 with (((h | h) | h) | h) | h
      · exact ⟨8, by simp, h⟩
      · exact ⟨9, by simp, h⟩
      · exact ⟨1, by simp, h⟩
      · exact ⟨6, by simp, h⟩
      · exact ⟨7, by simp, h⟩
    · rintro ⟨k, (rfl | rfl | rfl), hk⟩
      · rw [h2.1.2] at hk; cases hk
      · rw [h2.2] at hk; cases hk
      · rw [h2.1.1] at hk; cases hk
  · rintro ⟨⟨k, hk, hb⟩, h2⟩
    refine ⟨?_, ?_⟩
    · rcases hk with rfl | rfl | rfl | rfl | rfl <;> simp [hb]
    · refine ⟨⟨?_, ?_⟩, ?_⟩
      · cases hx : r.mask.getLsbD 15 with
        | false => rfl
        | true => exact absurd ⟨15, by simp, hx⟩ h2
      · cases hx : r.mask.getLsbD 10 with
        | false => rfl
        | true => exact absurd ⟨10, by simp, hx⟩ h2
      · cases hx : r.mask.getLsbD 11 with
        | false => rfl
        | true => exact absurd ⟨11, by simp, hx⟩ h2

private theorem batch_one {r : Rec} (hr : r.WF) (hl : r.name.length + r.pad ≤ 256) : Batch [r] where
  wf := by simpa using hr
  fits := by
    have := rec_length r
    simp only [batch, List.flatMap_cons, List.flatMap_nil, List.append_nil]
    omega
  ordered := trivial

/-- C27. A record with an entry bit and no self bit, for a known directory, is delivered as one event whose
effect is create, destroy, rename or modify according to the mask, in this order of precedence, and whose
path type is directory exactly when bit 30 is set; only watcher warnings can precede it. -/
theorem C27_effect {σ} (S : Sys σ) (hS : SoundSys S) (r : Rec) (hr : r.WF) (hl : r.name.length + r.pad ≤ 256)
    (st : St σ) (ht : SoundTable st.dm) (dir : Str) (hd : st.dm.lookup r.wd = some dir)
    (he : EntryBits r.mask) (hs : ¬ SelfBits r.mask) :
    ∃ st' warn, doEvRecv S (.data (batch [r])) st = .ok (st', .pending) ∧
      (∀ e ∈ warn, e.ptype = .watcher) ∧
      st'.out = st.out ++ warn ++ [{
        path := entryPath dir r.name,
        effect := if r.mask.getLsbD 8 then .create else if r.mask.getLsbD 9 then .destroy
          else if r.mask.getLsbD 6 ∨ r.mask.getLsbD 7 then .rename else .modify,
        ptype := if r.mask.getLsbD 30 then .dir else .file }] := by
  have hrep := (reportable_iff r).2 ⟨he, hs⟩
  refine ⟨_, (markOf S r dir st.dm st.sys).1, recv_eq S hS [r] (batch_one hr hl) st ht, ?_, ?_⟩
  · intro e hm
    have := markOf_file S r dir st.dm st.sys
    have h2 := List.filter_eq_nil_iff.1 this e hm
    simpa using h2
  · rw [report_single S st.sys hd hrep (fun _ _ h => by cases h), report_nil]
    simp [Rec.event, Rec.effect, Rec.ptype, Rec.created, Rec.deleted, Rec.movedFrom, Rec.movedTo, Rec.onDir, Rec.bit]

/-- C27. A record without entry bits (accesses, opens, closes, attribute changes) or with a self bit, for
a known directory, is not delivered at all. -/
theorem C27_silent {σ} (S : Sys σ) (hS : SoundSys S) (r : Rec) (hr : r.WF) (hl : r.name.length + r.pad ≤ 256)
    (st : St σ) (ht : SoundTable st.dm) (dir : Str) (hd : st.dm.lookup r.wd = some dir)
    (h : ¬ EntryBits r.mask ∨ SelfBits r.mask) :
    ∃ st', doEvRecv S (.data (batch [r])) st = .ok (st', .pending) ∧ st'.out = st.out := by
  have hrep : r.reportable = false := by
    cases hx : r.reportable with
    | false => rfl
    | true =>
      have := (reportable_iff r).1 hx
      rcases h with h | h
      · exact absurd this.1 h
      · exact absurd h this.2
  refine ⟨_, recv_eq S hS [r] (batch_one hr hl) st ht, ?_⟩
  rw [report_silent S [] st.sys hd hrep, report_nil]
  simp

/-- C27. The kernel is asked for exactly the seven kinds of events above (the self kind 15 always comes). -/
theorem C27_requested (k : Nat) : recvMask.getLsbD k = true ↔
    k = 1 ∨ k = 6 ∨ k = 7 ∨ k = 8 ∨ k = 9 ∨ k = 10 ∨ k = 11 := by
  by_cases hk : k < 32
  · have : ∀ k : Fin 32, (recvMask.getLsbD k.val = true ↔
        k.val = 1 ∨ k.val = 6 ∨ k.val = 7 ∨ k.val = 8 ∨ k.val = 9 ∨ k.val = 10 ∨ k.val = 11) := by decide
    exact this ⟨k, hk⟩
  · have : recvMask.getLsbD k = false := BitVec.getLsbD_of_ge _ _ (by omega)
    rw [this]
    simp; omega

example : EntryBits 0x40000200#32 ∧ ¬ SelfBits 0x40000200#32 ∧ ¬ EntryBits 0x20#32 ∧ SelfBits 0x8000#32 := by
  refine ⟨⟨9, by simp, by decide⟩, ?_, ?_, ⟨15, by simp, by decide⟩⟩
  · rintro ⟨k, (rfl | rfl | rfl), h⟩ <;> revert h <;> decide
  · rintro ⟨k, (rfl | rfl | rfl | rfl | rfl), h⟩ <;> revert h <;> decide

/-! ## C28 -/

/-- C28, the full claim for a rename whose two records are next to each other in a batch: one rename event
with the old path below the old directory and the new path below the new directory. -/
def C28_full : Prop := ∀ (σ : Type) (S : Sys σ) (_ : SoundSys S) (pre post : List Rec) (a b : Rec)
    (_ : Batch (pre ++ a :: b :: post)) (st : St σ) (_ : SoundTable st.dm)
    (_ : AllKnown st.dm (pre ++ a :: b :: post)) (d1 d2 : Str),
    st.dm.lookup a.wd = some d1 → st.dm.lookup b.wd = some d2 →
    a.reportable = true → a.renamedTo b = true →
    ∃ st' o1 o2, doEvRecv S (.data (batch (pre ++ a :: b :: post))) st = .ok (st', .pending) ∧
      st'.out = st.out ++ o1 ++ pairEvent a b d1 d2 :: o2

/-- C28 (partial: both names in the same directory). A rename inside one directory whose two records are
next to each other, at any place of any batch, is delivered as one rename event with the old path, the new
path as its associated event, after the events of the records before it and before those of the records
after it. Missing: renames between two directories (see `C28_refuted`) and records in different reads (see
`C28_split`). -/
theorem C28_same_dir_partial {σ} (S : Sys σ) (hS : SoundSys S) (pre post : List Rec) (a b : Rec)
    (hb : Batch (pre ++ a :: b :: post)) (st : St σ) (ht : SoundTable st.dm)
    (dir : Str) (hd : st.dm.lookup a.wd = some dir) (_hd2 : st.dm.lookup b.wd = some dir)
    (ha : a.reportable = true) (hto : a.movedTo = false) (hab : a.renamedTo b = true) :
    ∃ st' o1 o2, doEvRecv S (.data (batch (pre ++ a :: b :: post))) st = .ok (st', .pending) ∧
      st'.out = st.out ++ o1 ++ pairEvent a b dir dir :: o2 ∧
      o1 = (report S pre st.dm st.sys).1 ∧
      ∀ e ∈ o2, Origin post e := by
  have hal : ∀ x ∈ pre, Alone x (a :: b :: post) := by
    intro x _ r2 rest2 h
    cases h
    simp [Rec.renamedTo, hto]
  have hk := report_keeps S a.wd dir _ pre (Nat.le_refl _) st.dm st.sys hd
  refine ⟨_, _, (report S post (report S pre st.dm st.sys).2.1 (report S pre st.dm st.sys).2.2).1,
    recv_eq S hS _ hb st ht, ?_, rfl, ?_⟩
  · rw [report_split S _ _ pre (Nat.le_refl _) hal, report_pair S post _ hk ha hab]
    simp
  · exact report_origin S _ post (Nat.le_refl _) _ _

/-- C28, what happens when the two records are in different reads: two rename events, each with one of the
paths and without an associated event. -/
theorem C28_split {σ} (S : Sys σ) (hS : SoundSys S) (pre post : List Rec) (a b : Rec)
    (h1 : Batch (pre ++ [a])) (h2 : Batch (b :: post)) (st : St σ) (ht : SoundTable st.dm)
    (d1 d2 : Str) (hd1 : st.dm.lookup a.wd = some d1) (hd2 : st.dm.lookup b.wd = some d2)
    (hg : b.wd ∉ gone (pre ++ [a]))
    (hb : b.reportable = true) (hfrom : b.movedFrom = false)
    (ha : a.reportable = true) (hto : a.movedTo = false) (hab : a.renamedTo b = true) (hbe : b.created = false ∧ b.deleted = false) :
    ∃ st1 st2 o1 o2, doEvRecv S (.data (batch (pre ++ [a]))) st = .ok (st1, .pending) ∧
      doEvRecv S (.data (batch (b :: post))) st1 = .ok (st2, .pending) ∧
      st2.out = st.out ++ o1 ++ [{ path := entryPath d1 a.name, effect := .rename, ptype := a.ptype },
        { path := entryPath d2 b.name, effect := .rename, ptype := b.ptype }] ++ o2 := by
  have hal : ∀ x ∈ pre, Alone x [a] := by
    intro x _ r2 rest2 h
    cases h
    simp [Rec.renamedTo, hto]
  have hk := report_keeps S a.wd d1 _ pre (Nat.le_refl _) st.dm st.sys hd1
  have hk2 := report_keeps S b.wd d2 _ (pre ++ [a]) (Nat.le_refl _) st.dm st.sys hd2
  have hk3 : (without (report S (pre ++ [a]) st.dm st.sys).2.1 (gone (pre ++ [a]))).lookup b.wd = some d2 := by
    have : ∀ t : Table, t.lookup b.wd = some d2 → (without t (gone (pre ++ [a]))).lookup b.wd = some d2 := by
      intro t
      induction t with
      | nil => intro h; cases h
      | cons e t ih =>
        intro h
        rw [List.lookup_cons] at h
        unfold without
        rw [List.filter_cons]
        split at h
        · rename_i hbe
          have : e.1 = b.wd := by have := eq_of_beq hbe; exact this.symm
          have hc : (!(gone (pre ++ [a])).contains e.1) = true := by rw [this]; simpa using hg
          rw [if_pos hc, List.lookup_cons, hbe, h]
        · rename_i hbe
          split
          · rw [List.lookup_cons, hbe]; exact ih h
          · exact ih h
    exact this _ hk2
  have hs1 := report_sound S hS _ (pre ++ [a]) (Nat.le_refl _) st.dm st.sys ht
  have ht1 : SoundTable (without (report S (pre ++ [a]) st.dm st.sys).2.1 (gone (pre ++ [a]))) :=
    fun e he => hs1 e ((List.mem_filter.1 he).1)
  have haleb : Alone b post := by
    intro r2 rest2 _
    simp [Rec.renamedTo, hfrom]
  have hea : a.effect = .rename := by simp [Rec.renamedTo] at hab; exact hab.1.1.1.1
  have hmb : b.movedTo = true := by simp [Rec.renamedTo] at hab; exact hab.2
  have hac : a.created = false := by
    cases hx : a.created with
    | false => rfl
    | true => simp [Rec.effect, hx] at hea
  refine ⟨_, _, (report S pre st.dm st.sys).1, ?_, recv_eq S hS _ h1 st ht, recv_eq S hS _ h2 _ ht1, ?_⟩
  rotate_left
  · simp only
    rw [report_single S _ hk3 hb haleb]
    rw [report_split S _ _ pre (Nat.le_refl _) hal, report_single S _ hk ha (fun _ _ h => by cases h), report_nil]
    simp only [markOf, hac, hbe.1, Bool.false_and, Bool.false_eq_true, if_false, List.nil_append,
      List.append_assoc, List.cons_append]
    rw [Rec.event, Rec.event, hea]
    have : b.effect = .rename := by simp [Rec.effect, hbe.1, hbe.2, hmb]
    rw [this]

private def crossRecs : List Rec :=
  [ { wd := 1, mask := 0x40#32, cookie := 9#32, name := b!"f", pad := 15 },
    { wd := 2, mask := 0x80#32, cookie := 9#32, name := b!"g", pad := 15 } ]

private theorem cross_batch : Batch crossRecs where
  wf := by
    intro r hr
    simp only [crossRecs, List.mem_cons, List.not_mem_nil, or_false] at hr
    rcases hr with rfl | rfl <;>
      exact ⟨by decide, by decide, by decide, by decide, by decide, by decide, by decide, by decide⟩
  fits := by rw [batch_length]; decide
  ordered := by simp [crossRecs, Ordered, Rec.movedTo, Rec.movedFrom, Rec.bit]

/-- C28 is false of the code for a rename from one directory into another: moving `/r/f` to `/r/d/g` is
reported as a rename to `/r/g`. -/
theorem C28_refuted : ¬ C28_full := by
  intro h
  obtain ⟨st', o1, o2, h1, h2⟩ := h Nat demoS demoS_sound [] [] _ _ cross_batch demoSt demoTable_sound
    (by
      intro r hr
      simp only [List.nil_append, List.mem_cons, List.not_mem_nil, or_false] at hr
      rcases hr with rfl | rfl
      · exact ⟨b!"/r", by decide⟩
      · exact ⟨b!"/r/d", by decide⟩) b!"/r" b!"/r/d" (by decide) (by decide) (by decide) (by decide)
  have h3 := recv_eq demoS demoS_sound crossRecs cross_batch demoSt demoTable_sound
  rw [show [] ++ _ :: _ :: [] = crossRecs from rfl, h3] at h1
  have h4 : st'.out = demoSt.out ++ (report demoS crossRecs demoSt.dm demoSt.sys).1 := by
    injection h1 with h1; injection h1 with h1 _; rw [← h1]
  rw [h4] at h2
  have h5 : demoSt.out ++ (report demoS crossRecs demoSt.dm demoSt.sys).1 =
      [{ path := b!"/r/f", effect := .rename, ptype := .file,
         assoc := some { path := b!"/r/g", effect := .rename, ptype := .file } }] := by decide
  rw [h5] at h2
  have h6 := congrArg List.length h2
  simp [demoSt] at h6
  have : o1 = [] := List.length_eq_zero_iff.1 (by omega)
  subst this
  have : o2 = [] := List.length_eq_zero_iff.1 (by omega)
  subst this
  revert h2
  decide

/-- Non-vacuity of `C28_same_dir_partial`: the rename in the demo batch. -/
example : ∃ pre post a b, demoRecs = pre ++ a :: b :: post ∧ pre.length = 2 ∧ a.reportable = true ∧ a.movedTo = false ∧
    a.renamedTo b = true ∧ demoTable.lookup a.wd = some b!"/r" ∧ demoTable.lookup b.wd = some b!"/r" :=
  ⟨demoRecs.take 2, demoRecs.drop 4, demoRecs[2], demoRecs[3], rfl, rfl, by decide, by decide, by decide, by decide, by decide⟩

/-- Non-vacuity of `C28_split`: the same rename cut between two reads. -/
example : Batch (demoRecs.take 2 ++ [demoRecs[2]]) ∧ Batch (demoRecs[3] :: demoRecs.drop 4) ∧
    demoRecs[3].wd ∉ gone (demoRecs.take 2 ++ [demoRecs[2]]) ∧ demoRecs[3].reportable = true ∧
    demoRecs[3].movedFrom = false := by
  refine ⟨⟨fun r hr => demo_batch.wf r (List.mem_of_mem_take (i := 3) hr), by rw [batch_length]; decide, ?_⟩,
    ⟨fun r hr => demo_batch.wf r (List.mem_of_mem_drop (i := 3) hr), by rw [batch_length]; decide, ?_⟩, by decide, by decide, by decide⟩
  · simp [demoRecs, Ordered, Rec.movedTo, Rec.movedFrom, Rec.bit]
  · simp [demoRecs, Ordered, Rec.movedTo, Rec.movedFrom, Rec.bit]

/-! ## C29 -/

private theorem mark_unknown {σ} (S : Sys σ) (u : Rec) (p : Str) (t : Table) (w : σ) (h : u.Unknown S t) :
    (markSpec S p t w).2.1.lookup u.wd = none := by
  unfold markSpec
  simp only
  split
  · exact h.1
  · split
    · exact h.1
    · rename_i real w1 _ _ w2 _
      have hne := h.2 w2 real
      split
      · simp only
        split
        · rw [List.lookup_cons]
          split
          · rename_i hb; simp at hb; exact absurd hb.symm hne
          · exact h.1
        · exact h.1
      · exact h.1

private theorem report_keeps_unknown {σ} (S : Sys σ) (u : Rec) : ∀ (n : Nat) (rs : List Rec), rs.length ≤ n →
    ∀ (t : Table) (w : σ), u.Unknown S t → u.Unknown S (report S rs t w).2.1 := by
  intro n
  induction n with
  | zero => intro rs h t w hk; rw [List.length_eq_zero_iff.1 (by omega : rs.length = 0)]; simpa [report_nil]
  | succ n ih =>
    intro rs hn t w hk
    cases rs with
    | nil => simpa [report_nil]
    | cons r rest =>
      simp only [List.length_cons] at hn
      cases hd : t.lookup r.wd with
      | none => rw [report_unknown S _ w hd]; exact ih rest (by omega) t w hk
      | some d' =>
        by_cases hr : r.reportable = true
        · rcases alone_or r rest with h | ⟨r2, rest2, rfl, h⟩
          · rw [report_single S w hd hr h]
            refine ih rest (by omega) _ _ ?_
            unfold markOf
            split
            · exact ⟨mark_unknown S u _ t w hk, hk.2⟩
            · exact hk
          · simp only [List.length_cons] at hn
            rw [report_pair S _ w hd hr h]; exact ih rest2 (by omega) t w hk
        · rw [report_silent S _ w hd (by simpa using hr)]; exact ih rest (by omega) t w hk

private theorem lookup_none_mem {t : Table} {wd : Int} (h : t.lookup wd = none) : ∀ e ∈ t, e.1 ≠ wd := by
  induction t with
  | nil => intro e he; cases he
  | cons x t ih =>
    rw [List.lookup_cons] at h
    split at h
    · cases h
    · rename_i hb
      intro e he
      rcases List.mem_cons.1 he with rfl | he
      · intro hx; simp [hx] at hb
      · exact ih h e he

/-- C29, the full claim: a record of an unknown watch, anywhere in a batch, adds one warning, and the rest
of the batch is processed as if it were not there. -/
def C29_full : Prop := ∀ (σ : Type) (S : Sys σ) (_ : SoundSys S) (pre post : List Rec) (u : Rec)
    (_ : Batch (pre ++ u :: post)) (_ : Batch (pre ++ post)) (st : St σ) (_ : SoundTable st.dm),
    u.Unknown S st.dm →
    ∃ st1 st2 o1 o2, doEvRecv S (.data (batch (pre ++ post))) st = .ok (st1, .pending) ∧
      doEvRecv S (.data (batch (pre ++ u :: post))) st = .ok (st2, .pending) ∧
      st1.out = st.out ++ o1 ++ o2 ∧
      st2.out = st.out ++ o1 ++ { path := b!"w/sys/phantom@", effect := .other, ptype := .watcher } :: o2 ∧
      st2.dm = st1.dm ∧ st2.sys = st1.sys

/-- C29 (partial: the record must not come between the two halves of one rename, nor look like a half
itself of the record before it). Everything else as in the full claim. -/
theorem C29_unknown_partial {σ} (S : Sys σ) (hS : SoundSys S) (pre post : List Rec) (u : Rec)
    (hb : Batch (pre ++ u :: post)) (hb' : Batch (pre ++ post)) (st : St σ) (ht : SoundTable st.dm)
    (hu : u.Unknown S st.dm)
    (hsep : ∀ a b rest, a ∈ pre → post = b :: rest → ¬ a.renamedTo b = true)
    (hhalf : ∀ a ∈ pre, ¬ a.renamedTo u = true) :
    ∃ st1 st2 o1 o2, doEvRecv S (.data (batch (pre ++ post))) st = .ok (st1, .pending) ∧
      doEvRecv S (.data (batch (pre ++ u :: post))) st = .ok (st2, .pending) ∧
      st1.out = st.out ++ o1 ++ o2 ∧
      st2.out = st.out ++ o1 ++ { path := b!"w/sys/phantom@", effect := .other, ptype := .watcher } :: o2 ∧
      st2.dm = st1.dm ∧ st2.sys = st1.sys := by
  have h1 : ∀ x ∈ pre, Alone x post := fun x hx r2 rest2 e => hsep x r2 rest2 hx e
  have h2 : ∀ x ∈ pre, Alone x (u :: post) := fun x hx r2 rest2 e => by cases e; exact hhalf x hx
  have hu' := report_keeps_unknown S u _ pre (Nat.le_refl _) st.dm st.sys hu
  have hu'' := report_keeps_unknown S u _ post (Nat.le_refl _) _ (report S pre st.dm st.sys).2.2 hu'
  refine ⟨_, _, (report S pre st.dm st.sys).1,
    (report S post (report S pre st.dm st.sys).2.1 (report S pre st.dm st.sys).2.2).1,
    recv_eq S hS _ hb' st ht, recv_eq S hS _ hb st ht, ?_, ?_, ?_, ?_⟩
  · rw [report_split S _ _ pre (Nat.le_refl _) h1]; simp
  · rw [report_split S _ _ pre (Nat.le_refl _) h2, report_unknown S post _ hu'.1]; simp [phantomMsg]
  · simp only
    rw [report_split S _ _ pre (Nat.le_refl _) h2, report_unknown S post _ hu'.1,
      report_split S _ _ pre (Nat.le_refl _) h1]
    simp only [without]
    apply List.filter_congr
    intro e he
    have hne := lookup_none_mem hu''.1 e he
    congr 1
    simp only [gone, List.filter_append, List.filter_cons, List.map_append, List.contains_eq_mem]
    apply decide_eq_decide.2
    split
    · simp only [List.map_cons, List.mem_append, List.mem_cons]
      constructor
      · rintro (h | h | h)
        · exact .inl h
        · exact absurd h hne
        · exact .inr h
      · rintro (h | h)
        · exact .inl h
        · exact .inr (.inr h)
    · rfl
  · simp only
    rw [report_split S _ _ pre (Nat.le_refl _) h2, report_unknown S post _ hu'.1,
      report_split S _ _ pre (Nat.le_refl _) h1]

private def cutRecs (mid : List Rec) : List Rec :=
  { wd := 1, mask := 0x40#32, cookie := 7#32, name := b!"f", pad := 15 } :: mid ++
    [{ wd := 1, mask := 0x80#32, cookie := 7#32, name := b!"g", pad := 15 }]

private def oldRec : Rec := { wd := 8, mask := 0x8000#32 }

private theorem cut_batch (mid : List Rec) (h : mid = [] ∨ mid = [oldRec]) : Batch (cutRecs mid) where
  wf := by
    intro r hr
    have : r ∈ cutRecs [oldRec] := by
      rcases h with rfl | rfl
      · simp [cutRecs] at hr ⊢; rcases hr with h | h <;> simp [h]
      · exact hr
    simp only [cutRecs, oldRec, List.cons_append, List.nil_append, List.mem_cons, List.not_mem_nil, or_false] at this
    rcases this with rfl | rfl | rfl <;>
      exact ⟨by decide, by decide, by decide, by decide, by decide, by decide, by decide, by decide⟩
  fits := by rcases h with rfl | rfl <;> rw [batch_length] <;> decide
  ordered := by rcases h with rfl | rfl <;> simp [cutRecs, oldRec, Ordered, Rec.movedTo, Rec.movedFrom, Rec.bit]

/-- C29 is false of the code when the record stands between the halves of a rename: they are then reported
as two renames. -/
theorem C29_refuted : ¬ C29_full := by
  intro h
  obtain ⟨st1, st2, o1, o2, h1, h2, h3, h4, -, -⟩ := h Nat demoS demoS_sound
    [{ wd := 1, mask := 0x40#32, cookie := 7#32, name := b!"f", pad := 15 }]
    [{ wd := 1, mask := 0x80#32, cookie := 7#32, name := b!"g", pad := 15 }] oldRec
    (cut_batch [oldRec] (.inr rfl)) (cut_batch [] (.inl rfl)) demoSt demoTable_sound
    ⟨by decide, by intro w p; simp [demoS, demoSys, oldRec]⟩
  have e1 := recv_eq demoS demoS_sound (cutRecs []) (cut_batch [] (.inl rfl)) demoSt demoTable_sound
  have e2 := recv_eq demoS demoS_sound (cutRecs [oldRec]) (cut_batch [oldRec] (.inr rfl)) demoSt demoTable_sound
  rw [show cutRecs [] = [_] ++ [_] from rfl] at e1
  rw [show cutRecs [oldRec] = [_] ++ oldRec :: [_] from rfl] at e2
  rw [e1] at h1
  rw [e2] at h2
  injection h1 with h1; injection h1 with h1 _
  injection h2 with h2; injection h2 with h2 _
  have l1 : st1.out.length = 1 := by rw [← h1]; decide
  have l2 : st2.out.length = 3 := by rw [← h2]; decide
  rw [h3] at l1
  rw [h4] at l2
  simp [demoSt] at l1 l2
  omega

/-- Non-vacuity of `C29_unknown_partial`: the first six records of the demo batch with an old record put
after the rename. -/
example : (∀ a b rest, a ∈ demoRecs.take 4 → demoRecs.drop 4 = b :: rest → ¬ a.renamedTo b = true) ∧
    (∀ a ∈ demoRecs.take 4, ¬ a.renamedTo oldRec = true) ∧ oldRec.Unknown demoS demoTable := by
  refine ⟨?_, by decide, by decide, fun _ _ => by simp [demoS, demoSys, oldRec]⟩
  intro a b rest ha hb
  have : b = demoRecs[4] := by
    simp [demoRecs] at hb; exact hb.1.symm
  subst this
  revert a
  decide

/-! ## C30 -/

/-- C30, the full claim: a queue-overflow record in a batch leads to a message with the documented text. -/
def C30_full : Prop := ∀ (σ : Type) (S : Sys σ) (_ : SoundSys S) (rs : List Rec) (_ : Batch rs) (st : St σ)
    (_ : SoundTable st.dm), (∃ r ∈ rs, r.overflow = true) →
    ∃ st' o, doEvRecv S (.data (batch rs)) st = .ok (st', .pending) ∧ st'.out = st.out ++ o ∧
      ∃ e ∈ o, e.ptype = .watcher ∧ b!"w/sys/q_overflow@" <+: e.path

/-- C30: no batch whatsoever leads to the documented text: an overflow record carries descriptor -1, which
no table entry has. -/
theorem C30_never {σ} (S : Sys σ) (hS : SoundSys S) (rs : List Rec) (hb : Batch rs) (st : St σ)
    (ht : SoundTable st.dm) :
    ∃ st' o, doEvRecv S (.data (batch rs)) st = .ok (st', .pending) ∧ st'.out = st.out ++ o ∧
      ∀ e ∈ o, e.ptype = .watcher → ¬ b!"w/sys/q_overflow@" <+: e.path := by
  refine ⟨_, _, recv_eq S hS rs hb st ht, rfl, ?_⟩
  intro e he hw hp
  rcases report_origin S _ rs (Nat.le_refl _) st.dm st.sys e he with rfl | ⟨p, rfl⟩ | ⟨r, _, d, _, rfl⟩ |
    ⟨r, _, r2, _, d, _, _, rfl⟩
  · revert hp; decide
  · simp [List.prefix_iff_eq_take] at hp
  · exact event_file r d hw
  · exact pair_file r r2 d d hw

theorem C30_refuted : ¬ C30_full := by
  intro h
  obtain ⟨st1, o1, h1, h2, e, he, hw, hp⟩ := h Nat demoS demoS_sound demoRecs demo_batch demoSt demoTable_sound
    ⟨demoRecs[7], by decide, by decide⟩
  obtain ⟨st2, o2, h3, h4, h5⟩ := C30_never demoS demoS_sound demoRecs demo_batch demoSt demoTable_sound
  rw [h1] at h3
  injection h3 with h3; injection h3 with h3 _
  subst h3
  rw [h2] at h4
  have := List.append_cancel_left h4
  subst this
  exact h5 e he hw hp

/-- C30 (partial: the loss is announced, but with the text of the phantom warning, so it cannot be told
from a stray record). Every overflow record, at any place of any batch, produces one warning
`w/sys/phantom@` after the events of the records before it. -/
theorem C30_overflow_partial {σ} (S : Sys σ) (hS : SoundSys S) (pre post : List Rec) (r : Rec)
    (hb : Batch (pre ++ r :: post)) (st : St σ) (ht : SoundTable st.dm) (ho : r.overflow = true)
    (hh : r.movedTo = false) :
    ∃ st' o2, doEvRecv S (.data (batch (pre ++ r :: post))) st = .ok (st', .pending) ∧
      st'.out = st.out ++ (report S pre st.dm st.sys).1 ++
        { path := b!"w/sys/phantom@", effect := .other, ptype := .watcher } :: o2 := by
  have hal : ∀ x ∈ pre, Alone x (r :: post) := by
    intro x _ r2 rest2 h
    cases h
    simp [Rec.renamedTo, hh]
  have hs := report_sound S hS _ pre (Nat.le_refl _) st.dm st.sys ht
  have hn : (report S pre st.dm st.sys).2.1.lookup r.wd = none := by
    cases hx : (report S pre st.dm st.sys).2.1.lookup r.wd with
    | none => rfl
    | some d =>
      have := (hs _ (lookup_mem hx)).1
      have hwd := (hb.wf r (by simp)).ovf ho
      simp only at this
      omega
  refine ⟨_, (report S post (report S pre st.dm st.sys).2.1 (report S pre st.dm st.sys).2.2).1,
    recv_eq S hS _ hb st ht, ?_⟩
  rw [report_split S _ _ pre (Nat.le_refl _) hal, report_unknown S post _ hn]
  simp [phantomMsg]

example : ∃ pre post r, demoRecs = pre ++ r :: post ∧ r.overflow = true ∧ r.movedTo = false ∧ pre.length = 7 :=
  ⟨demoRecs.take 7, [], demoRecs[7], rfl, by decide, by decide, rfl⟩

/-! ## C24: opening with nothing to watch -/

private theorem mark_cases {σ} (S : Sys σ) (d : Str) (st : St σ) :
    ((doMark S d st).1.dm = st.dm ∧ (doMark S d st).1.out = st.out ++ [sendMsg .wNotWatched d]) ∨
    ((doMark S d st).1.dm ≠ [] ∧ (doMark S d st).1.out = st.out) := by
  unfold doMark
  cases h1 : S.realpath st.sys d with
  | mk r w =>
    cases r with
    | none => exact .inl ⟨rfl, rfl⟩
    | some real =>
      cases h2 : S.isDir w real with
      | mk b w2 =>
        cases b with
        | false => exact .inl (by simp [h2, St.send])
        | true =>
          cases h3 : S.addWatch w2 real with
          | mk wd w3 =>
            by_cases hwd : wd > 0
            · refine .inr ?_
              simp only [h2, h3, hwd, if_true, and_true]
              unfold Table.emplace
              split
              · rename_i h; intro e; rw [e] at h; cases h
              · simp
            · exact .inl (by simp [h2, h3, hwd, St.send])

/-- C24: opening on inotify is refused exactly when every single directory of the tree was announced as not
watched; otherwise the watch begins. -/
theorem C24_open_refused_iff {σ} (S : Sys σ) (dirs : List Str) (st : St σ) :
    ((makeDm S dirs st).2 = .eNoent ∨ (makeDm S dirs st).2 = .pending) ∧
    ((makeDm S dirs st).2 = .eNoent ↔
      (makeDm S dirs st).1.out = st.out ++ dirs.map (fun d => ⟨b!"w/sys/not_watched@" ++ d, .other, .watcher, none⟩)) := by
  have gen : ∀ (dirs : List Str) (s : St σ),
      (s.dm ≠ [] → (dirs.foldl (fun st d => (doMark S d st).1) s).dm ≠ []) ∧
      (∃ ms, (dirs.foldl (fun st d => (doMark S d st).1) s).out = s.out ++ ms ∧ ms.length ≤ dirs.length ∧
        (s.dm = [] → ((dirs.foldl (fun st d => (doMark S d st).1) s).dm = [] ↔ ms = dirs.map (sendMsg .wNotWatched)) ∧
          ((dirs.foldl (fun st d => (doMark S d st).1) s).dm ≠ [] → ms.length < dirs.length))) := by
    intro dirs
    induction dirs with
    | nil => intro s; exact ⟨id, [], by simp, by simp, fun h => ⟨by simp [h], fun h' => absurd h h'⟩⟩
    | cons d ds ih =>
      intro s
      obtain ⟨i1, ms, i2, i3, i4⟩ := ih (doMark S d s).1
      rw [List.foldl_cons]
      rcases mark_cases S d s with ⟨a, b⟩ | ⟨a, b⟩
      · refine ⟨fun h => i1 (a ▸ h), sendMsg .wNotWatched d :: ms, by rw [i2, b]; simp, by simp; omega, fun h => ?_⟩
        obtain ⟨i5, i6⟩ := i4 (a ▸ h)
        refine ⟨by rw [i5]; simp, fun h' => ?_⟩
        have := i6 h'
        simp only [List.length_cons]; omega
      · refine ⟨fun _ => i1 a, ms, by rw [i2, b], by simp; omega, fun _ => ⟨⟨fun h => absurd h (i1 a), fun h => ?_⟩, fun _ => by simp; omega⟩⟩
        have := congrArg List.length h
        simp at this; omega
  obtain ⟨_, ms, g1, g2, g3⟩ := gen dirs { st with dm := [] }
  obtain ⟨g4, _⟩ := g3 rfl
  have hm : ms = dirs.map (sendMsg .wNotWatched) ↔
      (makeDm S dirs st).1.out = st.out ++ dirs.map (fun d => ⟨b!"w/sys/not_watched@" ++ d, .other, .watcher, none⟩) := by
    have e : (makeDm S dirs st).1.out = st.out ++ ms := g1
    rw [e, List.append_cancel_left_eq]
    have : (fun d : Str => (⟨b!"w/sys/not_watched@" ++ d, .other, .watcher, none⟩ : Ev)) = sendMsg .wNotWatched := by
      funext d; rfl
    rw [this]
  rw [← hm, ← g4]
  have hr : (makeDm S dirs st).2 = if (dirs.foldl (fun st d => (doMark S d st).1) { st with dm := [] }).dm.isEmpty then .eNoent else .pending := rfl
  rw [hr]
  cases (dirs.foldl (fun st d => (doMark S d st).1) { st with dm := [] }).dm <;> simp

example : (makeDm (σ := Unit) ⟨fun _ p => (some p, ()), fun _ _ => (true, ()), fun _ p => (if p = b!"/a" then -1 else 4, ())⟩
    [b!"/a", b!"/a/b"] { dm := [], sys := () }).2 = .pending := by decide

end Verif.Props
