import Verif.Lemmas.Fanotify5
import Verif.Props.Kernel
/-!
# Properties of reading fanotify batches (C36 - C43, C63, and the fanotify half of C30)
-/

namespace Verif.Props
open Verif Verif.Model Verif.Model.Fa Verif.Spec Verif.Lemmas.Fa

/-! A system used to show that hypotheses can be met and for the refutations: handle [1] is `/r`, [2] is
`/r/d`, [3] is the root directory, everything else is gone (ESTALE). -/

def faSys : Fa.Sys Nat where
  realpath n p := (some p, n + 1)
  isDir n _ := (true, n + 1)
  mark n _ := (true, n + 1)
  openByHandle n h := (if h = [1] then (11, 0) else if h = [2] then (12, 0) else if h = [3] then (13, 0) else (-1, 116), n + 1)
  readlink n fd := (some (if fd = 11 then b!"/r" else if fd = 12 then b!"/r/d" else b!"/"), n + 1)
  rightFirst := false

theorem faSys_sound : Fa.Sound faSys where
  err := by
    intro w h
    simp only [faSys]
    repeat' split
    all_goals simp
  link := by
    intro w h _
    refine ⟨_, rfl, ?_, ?_⟩
    · simp only [faSys]; repeat' split
      all_goals decide
    · simp only [faSys]; repeat' split
      all_goals decide

def faDir (h : List UInt8) : Str := if h = [1] then b!"/r" else if h = [2] then b!"/r/d" else b!"/"

theorem faSys_still (rs : List FRec) (h : ∀ r ∈ rs, r.handle = [1] ∨ r.handle = [2] ∨ r.handle = [3]) : Fa.Still faSys faDir rs := by
  intro r hr w
  rcases h r hr with h | h | h <;> rw [h] <;> exact ⟨by simp [faSys], rfl⟩

def faSt : Fa.St Nat := { buf := List.replicate 4096 0, sys := 0 }

theorem faSt_len : faSt.buf.length = 4096 := List.length_replicate

/-- A new directory, a modified file, a rename across directories, and a deleted directory itself. -/
def faRecs : List FRec :=
  [ { mask := 0x40000100#64, handle := [1], name := b!"d", pad := 3 },
    { mask := 0x2#64, handle := [2], name := b!"f", pad := 3 },
    { mask := 0x40#64, handle := [2], name := b!"f", pad := 3, move := some 1 },
    { mask := 0x80#64, handle := [1], name := b!"g", pad := 3, move := some 1 },
    { mask := 0x40000200#64, handle := [1], name := b!"d", pad := 3 } ]

theorem frec_wf {r : FRec} (h : r.fsid.length = 8 ∧ (0 : UInt8) ∉ r.name ∧ r.name.length ≤ 255 ∧ 0 < r.pad ∧
    (r.overflow = true → r.movedFrom = false ∧ r.movedTo = false)) : r.WF :=
  ⟨h.1, h.2.1, h.2.2.1, h.2.2.2.1, h.2.2.2.2⟩

theorem faRecs_batch : FBatch faRecs where
  wf := by
    intro r hr
    simp only [faRecs, List.mem_cons, List.not_mem_nil, or_false] at hr
    rcases hr with rfl | rfl | rfl | rfl | rfl <;> exact frec_wf (by decide)
  fits := by decide +kernel

/-! ## C36 -/

/-- C36 in full. -/
def C36_full : Prop := ∀ (σ : Type) (S : Fa.Sys σ) (rs : List FRec) (st : Fa.St σ), FBatch rs → st.buf.length = 4096 →
  ∃ st' res, doEvRecv S (.data (fbatch rs)) st = .ok (st', res) ∧ res ≠ .eRet

/-- C36 for every batch that leaves at least four bytes of the buffer free or does not end in a rename, on a file system where an
opened directory has a path that fits: every byte looked at is inside the buffer, processing ends, the
record limit is not hit, and the watcher goes on. -/
theorem C36_batch_safe_partial {σ} (S : Fa.Sys σ) (hS : Fa.Sound S) (rs : List FRec) (hb : FBatch rs)
    (h4 : Roomy rs) (st : Fa.St σ) (hl : st.buf.length = 4096) :
    ∃ st' res, doEvRecv S (.data (fbatch rs)) st = .ok (st', res) ∧ res ≠ .eRet ∧ res.keepsRunning = true :=
  recv_safe S hS rs hb h4 st hl

example : FBatch faRecs ∧ Roomy faRecs ∧ faRecs.length = 5 := ⟨faRecs_batch, .inl (by decide +kernel), rfl⟩

/-- Sixteen records of 256 bytes which fill the buffer to its last byte, without a rename at the end. -/
def brimRecs : List FRec :=
  List.replicate 16 { mask := 0x2#64, handle := [1], name := List.replicate 203 65, pad := 8 }

example : FBatch brimRecs ∧ Roomy brimRecs ∧ (fbatch brimRecs).length = 4096 := by
  refine ⟨⟨?_, by decide +kernel⟩, .inr ?_, by decide +kernel⟩
  · intro r hr
    rw [brimRecs, List.mem_replicate] at hr
    rw [hr.2]
    exact ⟨by decide, by decide +kernel, by decide +kernel, by decide, by decide⟩
  · rintro ⟨l, a, b, h, hf⟩
    have : a ∈ brimRecs := by rw [h]; simp
    rw [brimRecs, List.mem_replicate] at this
    rw [this.2] at hf
    have hm : (⟨2#64, [1], List.replicate 203 65, 8, [], 1#32, [0, 0, 0, 0, 0, 0, 0, 0], 1#32, none⟩ : FRec).movedFrom = false := by decide
    simp only [FRec.fromTo, Bool.and_eq_true] at hf
    rw [hm] at hf
    cases hf.1.2

/-- Sixteen records of 256 bytes which fill the buffer, the last two of them a rename. -/
def fullRecs : List FRec :=
  List.replicate 14 { mask := 0x2#64, handle := [1], name := List.replicate 203 65, pad := 8 } ++
  [ { mask := 0x40#64, handle := [1], name := List.replicate 203 65, pad := 8, move := some 1 },
    { mask := 0x80#64, handle := [1], name := List.replicate 203 66, pad := 8, move := some 1 } ]

theorem fullRecs_batch : FBatch fullRecs where
  wf := by
    intro r hr
    simp only [fullRecs, List.mem_append, List.mem_replicate, List.mem_cons, List.not_mem_nil, or_false] at hr
    rcases hr with ⟨_, rfl⟩ | rfl | rfl <;> exact frec_wf (by decide +kernel)
  fits := by decide +kernel

/-- C36 is false of the code: after a rename at the very end of a full buffer the length field behind the
buffer is read. -/
theorem C36_refuted_by_full_buffer : ¬ C36_full := by
  intro h
  obtain ⟨st', res, h1, _⟩ := h Nat faSys fullRecs faSt fullRecs_batch faSt_len
  have h2 : (match doEvRecv faSys (.data (fbatch fullRecs)) faSt with | .ok _ => false | .ub _ => true) = true := by decide +kernel
  rw [h1] at h2
  cases h2

/-- C36 is false of the code in a second way: where `/proc` is not mounted `readlink` answers -1, and the
byte before the path buffer is written. -/
theorem C36_refuted_without_proc : ∃ (S : Fa.Sys Nat) (rs : List FRec) (st : Fa.St Nat), FBatch rs ∧ (fbatch rs).length ≤ 4092 ∧
    st.buf.length = 4096 ∧ ∃ m, doEvRecv S (.data (fbatch rs)) st = .ub m := by
  refine ⟨{ faSys with readlink := fun n _ => (none, n) }, faRecs, faSt, faRecs_batch, by decide +kernel, faSt_len, ?_⟩
  have h : (match doEvRecv { faSys with readlink := fun n _ => (none, n) } (.data (fbatch faRecs)) faSt with
    | .ok _ => false | .ub _ => true) = true := by decide +kernel
  revert h
  cases doEvRecv { faSys with readlink := fun n _ => (none, n) } (.data (fbatch faRecs)) faSt with
  | ok _ => intro h; cases h
  | ub m => intro _; exact ⟨m, rfl⟩

/-! ## C37 -/

/-- C37 in full: the file events are exactly those due. -/
def C37_full : Prop := ∀ (σ : Type) (S : Fa.Sys σ) (_ : Fa.Sound S) (dirOf : List UInt8 → Str) (rs : List FRec) (st : Fa.St σ),
  FBatch rs → (fbatch rs).length ≤ 4092 → st.buf.length = 4096 → Fa.Still S dirOf rs → (∀ r ∈ rs, r.overflow = false) →
  ∃ st' o, doEvRecv S (.data (fbatch rs)) st = .ok (st', .pending) ∧ st'.out = st.out ++ o ∧
    fileEvents (o.map Prod.fst) = Fa.due (Fa.place dirOf) rs

/-- C37, when no moved-to record is directly followed by a moved-from record: the callback receives one
event for each record, in kernel order, adjacent moved-from/moved-to records folded into one. -/
theorem C37_complete_in_order_partial {σ} (S : Fa.Sys σ) (hS : Fa.Sound S) (dirOf : List UInt8 → Str) (rs : List FRec)
    (st : Fa.St σ) (hb : FBatch rs) (h4 : Roomy rs) (hl : st.buf.length = 4096) (hst : Fa.Still S dirOf rs)
    (ho : ∀ r ∈ rs, r.overflow = false) (hn : NoSwap rs) :
    ∃ st' o, doEvRecv S (.data (fbatch rs)) st = .ok (st', .pending) ∧ st'.out = st.out ++ o ∧
      fileEvents (o.map Prod.fst) = Fa.due (Fa.place dirOf) rs := by
  obtain ⟨w', h1, h2⟩ := run_due_then S dirOf _ rs [] (Nat.le_refl _) hst ho (by simp) st.sys
  rw [List.append_nil] at h1 h2
  rw [run_nil] at h1 h2
  have h3 := recv_run S hS rs hb h4 hn st hl
  rw [h2] at h3
  exact ⟨_, _, h3, rfl, by rw [h1]; simp [fileEvents]⟩

/-- C37, exactly, whatever happens to the directories meanwhile: the report of `Spec.Fa.run`. -/
theorem C37_exact_partial {σ} (S : Fa.Sys σ) (hS : Fa.Sound S) (rs : List FRec) (st : Fa.St σ) (hb : FBatch rs)
    (h4 : Roomy rs) (hl : st.buf.length = 4096) (hn : NoSwap rs) :
    ∃ st', doEvRecv S (.data (fbatch rs)) st = .ok (st', (Fa.run S rs st.sys).2.2) ∧
      st'.out = st.out ++ (Fa.run S rs st.sys).1 ∧ st'.sys = (Fa.run S rs st.sys).2.1 ∧ st'.buf.length = 4096 := by
  refine ⟨_, recv_run S hS rs hb h4 hn st hl, rfl, rfl, ?_⟩
  simp only [List.length_append, List.length_drop]
  have := hb.fits
  omega

/-- The demo batch meets the hypotheses, and this is due for it. -/
example : Fa.Still faSys faDir faRecs ∧ NoSwap faRecs ∧ (∀ r ∈ faRecs, r.overflow = false) ∧
    Fa.due (Fa.place faDir) faRecs = [
      { path := b!"/r/d", effect := .create, ptype := .dir },
      { path := b!"/r/d/f", effect := .modify, ptype := .file },
      { path := b!"/r/d/f", effect := .rename, ptype := .file,
        assoc := some { path := b!"/r/g", effect := .rename, ptype := .file } },
      { path := b!"/r/d", effect := .destroy, ptype := .dir }] := by
  refine ⟨faSys_still _ (by decide), ?_, by decide, by decide⟩
  simp [faRecs, NoSwap, FRec.toFrom, FRec.fromTo, FRec.effect, FRec.movedTo, FRec.movedFrom, FRec.created, FRec.deleted, FRec.modified, FRec.bit]

/-- A file moved in from outside, a file moved out, and a new file. -/
def swapRecs : List FRec :=
  [ { mask := 0x80#64, handle := [1], name := b!"in", pad := 2, move := some 1 },
    { mask := 0x40#64, handle := [1], name := b!"out", pad := 1, move := some 2 },
    { mask := 0x100#64, handle := [1], name := b!"new", pad := 1 } ]

theorem swapRecs_batch : FBatch swapRecs where
  wf := by
    intro r hr
    simp only [swapRecs, List.mem_cons, List.not_mem_nil, or_false] at hr
    rcases hr with rfl | rfl | rfl <;> exact frec_wf (by decide)
  fits := by decide +kernel

/-- What the code makes of it: "out was renamed to in" and "out was renamed"; the new file is lost. -/
theorem swap_reported : ∃ st, doEvRecv faSys (.data (fbatch swapRecs)) faSt = .ok st ∧ st.2 = .pending ∧
    st.1.out.map Prod.fst = [
      { path := b!"/r/out", effect := .rename, ptype := .file,
        assoc := some { path := b!"/r/in", effect := .rename, ptype := .file } },
      { path := b!"/r/out", effect := .rename, ptype := .file }] :=
  exists_ok (by decide +kernel)

/-- C37 is false of the code: a file moved in directly before another is moved out are reported as one
rename, the second of them again, and the last record of the batch is lost. -/
theorem C37_refuted : ¬ C37_full := by
  intro h
  obtain ⟨st', o, h1, h2, h3⟩ := h Nat faSys faSys_sound faDir swapRecs faSt swapRecs_batch (by decide +kernel) faSt_len
    (faSys_still _ (by decide)) (by decide)
  obtain ⟨st2, h4, _, h5⟩ := swap_reported
  rw [h1] at h4
  injection h4 with h4
  rw [← h4] at h5
  simp only at h5
  have h6 : o.map Prod.fst = st'.out.map Prod.fst := by rw [h2]; rfl
  rw [h6, h5] at h3
  revert h3
  decide

/-! ## C82 -/

/-- C82, for every batch (renames cut, crossed or merged, vanished directories and overflows included) and
every state of the buffer, whenever processing is defined: the file events delivered are drawn from the
records of the batch, in their order; an event with an associated event is about two neighbours, an old
name and a new name; every path is one the record's directory had when it was looked up during this read. -/
theorem C82_nothing_invented {σ} (S : Fa.Sys σ) (hS : Fa.Sound S) (rs : List FRec) (hb : FBatch rs) (st st' : Fa.St σ) (res : Result)
    (h : doEvRecv S (.data (fbatch rs)) st = .ok (st', res)) :
    ∃ new, st'.out = st.out ++ new ∧ Fa.Drawn (Fa.WasAt S st.sys st'.sys) rs (fileEvents (new.map Prod.fst)) := by
  obtain ⟨new, h1, h2, _⟩ := recv_drawn S hS rs hb st st' res h
  exact ⟨new, h1, h2⟩

/-- The batch of the crossed moves is one of those C37 is not true of, and what is delivered for it (see
`swap_reported`) uses its second record twice. -/
example : FBatch swapRecs ∧ ∃ st, doEvRecv faSys (.data (fbatch swapRecs)) faSt = .ok st ∧
    st.1.out.map (·.1.path) = [b!"/r/out", b!"/r/out"] :=
  ⟨swapRecs_batch, exists_ok (by decide +kernel)⟩

/-! ## C38 -/

/-- C38 in full: an event with an associated event is about two records of one rename. -/
def C38_full : Prop := ∀ (σ : Type) (S : Fa.Sys σ) (_ : Fa.Sound S) (dirOf : List UInt8 → Str) (rs : List FRec) (st st' : Fa.St σ)
  (res : Result), FBatch rs → (fbatch rs).length ≤ 4092 → st.buf.length = 4096 → st.out = [] → Fa.Still S dirOf rs →
  doEvRecv S (.data (fbatch rs)) st = .ok (st', res) → ∀ e ∈ st'.out.map Prod.fst, ∀ a, e.assoc = some a →
  ∃ x ∈ rs, ∃ y ∈ rs, x.move = y.move ∧ x.move ≠ none ∧ e.path = Fa.place dirOf x ∧ a.path = Fa.place dirOf y

/-- A file moved out, and then another moved in. -/
def strangeRecs : List FRec :=
  [ { mask := 0x40#64, handle := [1], name := b!"out", pad := 1, move := some 1 },
    { mask := 0x80#64, handle := [1], name := b!"in", pad := 2, move := some 2 } ]

theorem strangeRecs_batch : FBatch strangeRecs where
  wf := by
    intro r hr
    simp only [strangeRecs, List.mem_cons, List.not_mem_nil, or_false] at hr
    rcases hr with rfl | rfl <;> exact frec_wf (by decide)
  fits := by decide +kernel

theorem strange_reported : ∃ st, doEvRecv faSys (.data (fbatch strangeRecs)) faSt = .ok st ∧
    st.1.out.map Prod.fst = [
      { path := b!"/r/out", effect := .rename, ptype := .file,
        assoc := some { path := b!"/r/in", effect := .rename, ptype := .file } }] :=
  exists_ok (by decide +kernel)

/-- C38 is false of the code: a file moved out of the tree followed by another moved into it are reported
as one rename. -/
theorem C38_refuted : ¬ C38_full := by
  intro h
  obtain ⟨⟨st', res⟩, h1, h2⟩ := strange_reported
  obtain ⟨x, hx, y, hy, h3, h4, h5, h6⟩ := h Nat faSys faSys_sound faDir strangeRecs faSt st' res strangeRecs_batch (by decide +kernel)
    faSt_len rfl (faSys_still _ (by decide)) h1 _ (by rw [h2]; exact List.mem_singleton.2 rfl) _ rfl
  simp only [strangeRecs, List.mem_cons, List.not_mem_nil, or_false] at hx hy
  rcases hx with rfl | rfl <;> rcases hy with rfl | rfl <;> revert h3 h4 h5 h6 <;> decide

/-- C38, what holds: the two records are directly adjacent in the kernel's order, the first is a moved-from
and the second a moved-to record. So if such neighbours always are halves of one rename, only halves of
one rename are folded. -/
theorem C38_adjacent_partial {σ} (S : Fa.Sys σ) (hS : Fa.Sound S) (dirOf : List UInt8 → Str) (rs : List FRec) (st st' : Fa.St σ)
    (res : Result) (hb : FBatch rs) (h4 : Roomy rs) (hl : st.buf.length = 4096) (ho : st.out = [])
    (hst : Fa.Still S dirOf rs) (hn : NoSwap rs) (h : doEvRecv S (.data (fbatch rs)) st = .ok (st', res))
    (e : Ev) (he : e ∈ st'.out.map Prod.fst) (a : Half) (ha : e.assoc = some a) :
    ∃ l x y m, rs = l ++ x :: y :: m ∧ x.movedFrom = true ∧ y.movedTo = true ∧
      e.path = Fa.place dirOf x ∧ a.path = Fa.place dirOf y := by
  have h1 := recv_run S hS rs hb h4 hn st hl
  rw [h] at h1
  injection h1 with h1
  injection h1 with h1 _
  rw [h1] at he
  simp only [ho, List.nil_append] at he
  obtain ⟨l, x, y, m, w0, w1, hrs, hft, hres, _⟩ := run_pairs S _ rs (Nat.le_refl _) st.sys e a he ha
  obtain ⟨w2, h2⟩ := still_resolve2 S dirOf hst (r := x) (r2 := y) (by rw [hrs]; simp) (by rw [hrs]; simp) w0
  rw [h2] at hres
  simp only [Prod.mk.injEq, Option.some.injEq] at hres
  simp only [FRec.fromTo, Bool.and_eq_true] at hft
  exact ⟨l, x, y, m, hrs, hft.1.2, hft.2, hres.1.1.symm, hres.1.2.symm⟩

/-- The demo batch has such a pair, of one rename. -/
example : ∃ l x y m, faRecs = l ++ x :: y :: m ∧ x.movedFrom = true ∧ y.movedTo = true ∧ x.move = y.move ∧ x.move ≠ none :=
  ⟨faRecs.take 2, faRecs[2], faRecs[3], faRecs.drop 4, rfl, by decide, by decide, by decide, by decide⟩

/-! ## C39 -/

/-- C39 in full, on both back ends: a read that would block leaves the watcher running, any other failure
ends it with an error. -/
def C39_full : Prop :=
  (∀ (σ : Type) (S : In.Sys σ) (st : In.St σ), ∃ st1 r1 st2 r2,
    In.doEvRecv S (.err true) st = .ok (st1, r1) ∧ r1.keepsRunning = true ∧
    In.doEvRecv S (.err false) st = .ok (st2, r2) ∧ r2.isError = true) ∧
  (∀ (σ : Type) (S : Fa.Sys σ) (st : Fa.St σ), ∃ st1 r1 st2 r2,
    Fa.doEvRecv S (.err true) st = .ok (st1, r1) ∧ r1.keepsRunning = true ∧
    Fa.doEvRecv S (.err false) st = .ok (st2, r2) ∧ r2.isError = true)

/-- C39 is true of inotify. -/
theorem C39_inotify_partial {σ} (S : In.Sys σ) (st : In.St σ) : ∃ st1 r1 st2 r2,
    In.doEvRecv S (.err true) st = .ok (st1, r1) ∧ r1.keepsRunning = true ∧ st1.out = st.out ∧
    In.doEvRecv S (.err false) st = .ok (st2, r2) ∧ r2.isError = true ∧ r2 = .eRead :=
  ⟨_, _, _, _, rfl, by decide, rfl, rfl, by decide, rfl⟩

/-- C39 is false of fanotify, in every state: the two are the other way round. -/
theorem C39_refuted : ¬ C39_full := by
  rintro ⟨_, h⟩
  obtain ⟨st1, r1, st2, r2, h1, h2, _⟩ := h Nat faSys faSt
  simp only [doEvRecv, Outcome.ok.injEq, Prod.mk.injEq] at h1
  rw [← h1.2] at h2
  revert h2
  decide

/-- C39, fanotify, every state: "nothing to read" ends the watcher with an error, and a broken descriptor is
read again and again. -/
theorem C39_fanotify_inverted {σ} (S : Fa.Sys σ) (st : Fa.St σ) :
    doEvRecv S (.err true) st = .ok (st, .eRead) ∧ doEvRecv S (.err false) st = .ok (st, .pending) ∧
    Result.eRead.isError = true ∧ Result.pending.keepsRunning = true := ⟨rfl, rfl, rfl, rfl⟩

/-! ## C40 -/

/-- C40 in full: the others are reported. -/
def C40_full : Prop := ∀ (σ : Type) (S : Fa.Sys σ) (_ : Fa.Sound S) (dirOf : List UInt8 → Str) (pre post : List FRec) (x : FRec)
  (st : Fa.St σ), FBatch (pre ++ x :: post) → (fbatch (pre ++ x :: post)).length ≤ 4092 → st.buf.length = 4096 →
  NoSwap (pre ++ x :: post) → Fa.Still S dirOf pre → Fa.Still S dirOf post → Fa.Stale S x →
  (∀ r ∈ pre ++ x :: post, r.movedFrom = false ∧ r.movedTo = false ∧ r.overflow = false) →
  ∃ st' o res, doEvRecv S (.data (fbatch (pre ++ x :: post))) st = .ok (st', res) ∧ st'.out = st.out ++ o ∧
    fileEvents (o.map Prod.fst) = Fa.due (Fa.place dirOf) pre ++ Fa.due (Fa.place dirOf) post

/-- C40, what holds: everything before the stale record is reported, nothing behind it, no message is sent
about it, and the watcher goes on. (The stale record is not the second half of a rename.) -/
theorem C40_before_partial {σ} (S : Fa.Sys σ) (hS : Fa.Sound S) (dirOf : List UInt8 → Str) (pre post : List FRec) (x : FRec)
    (st : Fa.St σ) (hb : FBatch (pre ++ x :: post)) (h4 : Roomy (pre ++ x :: post))
    (hl : st.buf.length = 4096) (hn : NoSwap (pre ++ x :: post)) (hst : Fa.Still S dirOf pre) (hx : Fa.Stale S x)
    (ho : ∀ r ∈ pre, r.overflow = false) (hm : x.movedTo = false) :
    ∃ st' o res, doEvRecv S (.data (fbatch (pre ++ x :: post))) st = .ok (st', res) ∧ st'.out = st.out ++ o ∧
      fileEvents (o.map Prod.fst) = Fa.due (Fa.place dirOf) pre ∧ res.keepsRunning = true := by
  obtain ⟨w', h1, h2⟩ := run_due_then S dirOf _ pre (x :: post) (Nat.le_refl _) hst ho
    (by intro y l hy; injection hy with hy _; rw [← hy]; exact hm) st.sys
  have h3 := recv_run S hS _ hb h4 hn st hl
  have h5 : fileEvents ((Fa.run S (x :: post) w').1.map Prod.fst) = [] ∧ (Fa.run S (x :: post) w').2.2.keepsRunning = true := by
    by_cases hr : x.overflow = true
    · rw [run_ovf S w' hr]; exact ⟨by simp [fileEvents], rfl⟩
    · simp only [Bool.not_eq_true] at hr
      rcases falone_or x post with ha | ⟨r2, rest2, rfl, ha⟩
      · obtain ⟨w2, hw2⟩ := stale_resolve S hx w'
        rw [run_single S w' hr ha, hw2]; exact ⟨by simp [fileEvents], rfl⟩
      · rw [run_pair S w' hr ha]
        have : (Fa.resolve2 S x r2 w').1 = none := by
          unfold Fa.resolve2
          split
          · cases hq : Fa.resolve S r2 w' with
            | mk b w1 =>
              simp only
              obtain ⟨w2, hw2⟩ := stale_resolve S hx w1
              rw [hw2]; rfl
          · obtain ⟨w2, hw2⟩ := stale_resolve S hx w'
            rw [hw2]; rfl
        cases hq : Fa.resolve2 S x r2 w' with
        | mk b w1 =>
          rw [hq] at this
          simp only at this
          subst this
          exact ⟨by simp [fileEvents], rfl⟩
  refine ⟨_, _, _, h3, rfl, ?_, ?_⟩
  · rw [h1, h5.1, List.append_nil]
  · rw [h2]; exact h5.2

/-- A new file, a record of a directory that is gone, and another new file. -/
def staleRecs : List FRec :=
  [ { mask := 0x100#64, handle := [1], name := b!"a", pad := 3 },
    { mask := 0x200#64, handle := [9], name := b!"x", pad := 3 },
    { mask := 0x100#64, handle := [1], name := b!"b", pad := 3 } ]

theorem staleRecs_batch : FBatch staleRecs where
  wf := by
    intro r hr
    simp only [staleRecs, List.mem_cons, List.not_mem_nil, or_false] at hr
    rcases hr with rfl | rfl | rfl <;> exact frec_wf (by decide)
  fits := by decide +kernel

theorem stale_reported : ∃ st, doEvRecv faSys (.data (fbatch staleRecs)) faSt = .ok st ∧ st.2 = .wBadFd ∧
    st.1.out.map Prod.fst = [{ path := b!"/r/a", effect := .create, ptype := .file }] :=
  exists_ok (by decide +kernel)

theorem stale_noswap : NoSwap staleRecs := by
  simp [staleRecs, NoSwap, FRec.toFrom, FRec.effect, FRec.created, FRec.deleted, FRec.bit]

/-- C40 is false of the code: the new file behind the stale record is not reported. -/
theorem C40_refuted : ¬ C40_full := by
  intro h
  obtain ⟨st', o, res, h1, h2, h3⟩ := h Nat faSys faSys_sound faDir [staleRecs[0]] [staleRecs[2]] staleRecs[1] faSt staleRecs_batch
    (by decide +kernel) faSt_len stale_noswap (faSys_still _ (by decide)) (faSys_still _ (by decide))
    (by intro w; simp [faSys, staleRecs]) (by decide)
  obtain ⟨st2, h4, _, h5⟩ := stale_reported
  rw [show fbatch ([staleRecs[0]] ++ staleRecs[1] :: [staleRecs[2]]) = fbatch staleRecs from rfl, h4] at h1
  injection h1 with h1
  rw [h1] at h5
  simp only at h5
  have h6 : o.map Prod.fst = st'.out.map Prod.fst := by rw [h2]; rfl
  rw [h6, h5] at h3
  revert h3
  decide

example : Fa.Stale faSys staleRecs[1] ∧ staleRecs[1].movedTo = false ∧ Fa.Still faSys faDir [staleRecs[0]] :=
  ⟨by intro w; simp [faSys, staleRecs], by decide, faSys_still _ (by decide)⟩

/-! ## C41 -/

/-- C41 in full: a record about entry `name` of directory `dir` is reported with the path
`entryPath dir name`, a record about the directory itself (".") with `dir`. -/
def C41_full : Prop := ∀ (σ : Type) (S : Fa.Sys σ) (_ : Fa.Sound S) (dirOf : List UInt8 → Str) (r : FRec) (st : Fa.St σ),
  FBatch [r] → (fbatch [r]).length ≤ 4092 → st.buf.length = 4096 → Fa.Still S dirOf [r] → r.overflow = false →
  ∃ st' o e, doEvRecv S (.data (fbatch [r])) st = .ok (st', .pending) ∧ st'.out = st.out ++ o ∧
    fileEvents (o.map Prod.fst) = [e] ∧
    e.path = if r.name = b!"." then dirOf r.handle else entryPath (dirOf r.handle) r.name

/-- C41 for every directory but the root. -/
theorem C41_path_partial {σ} (S : Fa.Sys σ) (hS : Fa.Sound S) (dirOf : List UInt8 → Str) (r : FRec) (st : Fa.St σ)
    (hb : FBatch [r]) (h4 : Roomy [r]) (hl : st.buf.length = 4096) (hst : Fa.Still S dirOf [r])
    (ho : r.overflow = false) (hroot : dirOf r.handle ≠ b!"/") :
    ∃ st' o e, doEvRecv S (.data (fbatch [r])) st = .ok (st', .pending) ∧ st'.out = st.out ++ o ∧
      fileEvents (o.map Prod.fst) = [e] ∧
      e.path = if r.name = b!"." then dirOf r.handle else entryPath (dirOf r.handle) r.name := by
  obtain ⟨st', o, h1, h2, h3⟩ := C37_complete_in_order_partial S hS dirOf [r] st hb h4 hl hst (by simpa using ho) trivial
  refine ⟨st', o, ⟨Fa.place dirOf r, r.effect, r.ptype, none⟩, h1, h2, ?_, ?_⟩
  · rw [h3, due_single _ (fun _ _ h => by cases h), Fa.due]
  · simp only [Fa.place, entryPath, hroot, if_false]

theorem one_batch {r : FRec} (h : r.fsid.length = 8 ∧ (0 : UInt8) ∉ r.name ∧ r.name.length ≤ 255 ∧ 0 < r.pad ∧
    (r.overflow = true → r.movedFrom = false ∧ r.movedTo = false)) (hl : (fbatch [r]).length ≤ 4096) : FBatch [r] where
  wf := by simpa using frec_wf h
  fits := hl

/-- C41 is false of the code in the root directory: a new file `/f` is reported as `//f`. -/
theorem C41_refuted : ¬ C41_full := by
  intro h
  obtain ⟨st', o, e, h1, h2, h3, h4⟩ := h Nat faSys faSys_sound faDir { mask := 0x100#64, handle := [3], name := b!"f", pad := 3 } faSt
    (one_batch (by decide) (by decide +kernel)) (by decide +kernel) faSt_len (faSys_still _ (by decide)) (by decide)
  obtain ⟨st2, h5, h6⟩ : ∃ st, doEvRecv faSys (.data (fbatch [{ mask := 0x100#64, handle := [3], name := b!"f", pad := 3 }])) faSt = .ok st ∧
    st.1.out.map Prod.fst = [{ path := b!"//f", effect := .create, ptype := .file }] := exists_ok (by decide +kernel)
  rw [h1] at h5
  injection h5 with h5
  rw [← h5] at h6
  simp only at h6
  have h7 : o.map Prod.fst = st'.out.map Prod.fst := by rw [h2]; rfl
  rw [h7, h6] at h3
  have h8 : e = { path := b!"//f", effect := .create, ptype := .file } := by
    have : fileEvents [({ path := b!"//f", effect := .create, ptype := .file } : Ev)] = [{ path := b!"//f", effect := .create, ptype := .file }] := by decide
    rw [this] at h3
    injection h3 with h3 _
    exact h3.symm
  rw [h8] at h4
  revert h4
  decide

/-- Non-vacuity: an entry of `/r/d`, and `/r/d` itself. -/
example : faDir [2] ≠ b!"/" ∧ entryPath (faDir [2]) b!"f" = b!"/r/d/f" ∧
    FBatch [{ mask := 0x100#64, handle := [2], name := b!"f", pad := 3 }] ∧
    FBatch [{ mask := 0x40000200#64, handle := [2] }] :=
  ⟨by decide, by decide, one_batch (by decide) (by decide +kernel), one_batch (by decide) (by decide +kernel)⟩

/-! ## C42 -/

/-- C42 for a record on its own: the path type is directory exactly when bit 30 of the mask is set, and the
effect is one whose bit is set (create 8, destroy 9, modify 1, rename 6 or 7, and "other" only if none of
these is set). -/
theorem C42_single {σ} (S : Fa.Sys σ) (hS : Fa.Sound S) (dirOf : List UInt8 → Str) (r : FRec) (st : Fa.St σ)
    (hb : FBatch [r]) (h4 : Roomy [r]) (hl : st.buf.length = 4096) (hst : Fa.Still S dirOf [r])
    (ho : r.overflow = false) :
    ∃ st' o e, doEvRecv S (.data (fbatch [r])) st = .ok (st', .pending) ∧ st'.out = st.out ++ o ∧
      fileEvents (o.map Prod.fst) = [e] ∧ e.assoc = none ∧
      e.ptype = (if r.mask.getLsbD 30 then .dir else .file) ∧
      (match e.effect with
        | .create => r.mask.getLsbD 8 = true
        | .destroy => r.mask.getLsbD 9 = true
        | .modify => r.mask.getLsbD 1 = true
        | .rename => r.mask.getLsbD 6 = true ∨ r.mask.getLsbD 7 = true
        | .owner => False
        | .other => ∀ k, k = 1 ∨ k = 6 ∨ k = 7 ∨ k = 8 ∨ k = 9 → r.mask.getLsbD k = false) := by
  obtain ⟨st', o, h1, h2, h3⟩ := C37_complete_in_order_partial S hS dirOf [r] st hb h4 hl hst (by simpa using ho) trivial
  refine ⟨st', o, ⟨Fa.place dirOf r, r.effect, r.ptype, none⟩, h1, h2, ?_, rfl, rfl, ?_⟩
  · rw [h3, due_single _ (fun _ _ h => by cases h), Fa.due]
  · unfold FRec.effect FRec.created FRec.deleted FRec.modified FRec.movedFrom FRec.movedTo FRec.bit
    simp only
    cases h8 : r.mask.getLsbD 8 <;> cases h9 : r.mask.getLsbD 9 <;> cases h1 : r.mask.getLsbD 1 <;>
      cases h6 : r.mask.getLsbD 6 <;> cases h7 : r.mask.getLsbD 7 <;>
      simp only [Bool.false_eq_true, if_false, if_true, Bool.or_self, Bool.or_true, Bool.true_or, or_self, or_true, true_or]
    rintro k (rfl | rfl | rfl | rfl | rfl) <;> assumption

/-- C42 for a rename: both halves are reported as renames, and their path type is that of the first record. -/
theorem C42_pair {σ} (S : Fa.Sys σ) (hS : Fa.Sound S) (dirOf : List UInt8 → Str) (a b : FRec) (st : Fa.St σ)
    (hb : FBatch [a, b]) (h4 : Roomy [a, b]) (hl : st.buf.length = 4096) (hst : Fa.Still S dirOf [a, b])
    (ho : a.overflow = false)
    (ha : a.mask.getLsbD 6 = true ∧ a.mask.getLsbD 1 = false ∧ a.mask.getLsbD 8 = false ∧ a.mask.getLsbD 9 = false)
    (hb7 : b.mask.getLsbD 7 = true) :
    ∃ st' o e h, doEvRecv S (.data (fbatch [a, b])) st = .ok (st', .pending) ∧ st'.out = st.out ++ o ∧
      fileEvents (o.map Prod.fst) = [e] ∧ e.assoc = some h ∧ e.effect = .rename ∧ h.effect = .rename ∧
      e.ptype = (if a.mask.getLsbD 30 then .dir else .file) ∧
      h.ptype = (if a.mask.getLsbD 30 then .dir else .file) ∧
      (a.mask.getLsbD 30 = b.mask.getLsbD 30 → h.ptype = (if b.mask.getLsbD 30 then .dir else .file)) := by
  have hf : a.fromTo b = true := by
    simp only [FRec.fromTo, FRec.effect, FRec.created, FRec.deleted, FRec.modified, FRec.movedFrom, FRec.movedTo, FRec.bit, ha, hb7,
      Bool.false_eq_true, if_false, if_true, Bool.true_or]
    decide
  have hob : b.overflow = false := fromTo_not_ovf (hb.wf b (by simp)) hf
  obtain ⟨st', o, h1, h2, h3⟩ := C37_complete_in_order_partial S hS dirOf [a, b] st hb h4 hl hst
    (by intro r hr; simp only [List.mem_cons, List.not_mem_nil, or_false] at hr; rcases hr with rfl | rfl <;> assumption)
    ⟨fun _ => hf, trivial⟩
  refine ⟨st', o, ⟨Fa.place dirOf a, .rename, a.ptype, some ⟨Fa.place dirOf b, .rename, a.ptype⟩⟩, _, h1, h2, ?_, rfl, rfl, rfl, rfl, rfl, ?_⟩
  · rw [h3, due_pair _ hf, Fa.due]
  · intro h; rw [← h]; rfl

example : FBatch [faRecs[2], faRecs[3]] ∧ Fa.Still faSys faDir [faRecs[2], faRecs[3]] ∧ faRecs[2].mask.getLsbD 6 = true ∧
    faRecs[3].mask.getLsbD 7 = true := by
  refine ⟨⟨?_, by decide +kernel⟩, faSys_still _ (by decide), by decide, by decide⟩
  intro r hr
  exact faRecs_batch.wf r (by simp [faRecs] at hr ⊢; rcases hr with h | h <;> simp [h])

/-! ## C63 -/

/-- C63 in full: every effect in a mask is reported. The kernel merges records about the same entry. -/
def C63_full : Prop := ∀ (σ : Type) (S : Fa.Sys σ) (_ : Fa.Sound S) (dirOf : List UInt8 → Str) (r : FRec) (st : Fa.St σ),
  FBatch [r] → (fbatch [r]).length ≤ 4092 → st.buf.length = 4096 → Fa.Still S dirOf [r] → r.overflow = false →
  ∃ st' o, doEvRecv S (.data (fbatch [r])) st = .ok (st', .pending) ∧ st'.out = st.out ++ o ∧
    (r.mask.getLsbD 8 = true → ∃ e ∈ o.map Prod.fst, e.effect = .create) ∧
    (r.mask.getLsbD 9 = true → ∃ e ∈ o.map Prod.fst, e.effect = .destroy) ∧
    (r.mask.getLsbD 1 = true → ∃ e ∈ o.map Prod.fst, e.effect = .modify) ∧
    (r.mask.getLsbD 6 = true ∨ r.mask.getLsbD 7 = true → ∃ e ∈ o.map Prod.fst, e.effect = .rename)

/-- C63 is false of the code: a file created and deleted again before the batch is read (the kernel merges
the two into one record) is reported as created only. -/
theorem C63_refuted : ¬ C63_full := by
  intro h
  obtain ⟨st', o, h1, h2, _, h3, _⟩ := h Nat faSys faSys_sound faDir { mask := 0x300#64, handle := [1], name := b!"f", pad := 3 } faSt
    (one_batch (by decide) (by decide +kernel)) (by decide +kernel) faSt_len (faSys_still _ (by decide)) (by decide)
  obtain ⟨st2, h5, h6⟩ : ∃ st, doEvRecv faSys (.data (fbatch [{ mask := 0x300#64, handle := [1], name := b!"f", pad := 3 }])) faSt = .ok st ∧
    st.1.out.map Prod.fst = [{ path := b!"/r/f", effect := .create, ptype := .file }] := exists_ok (by decide +kernel)
  rw [h1] at h5
  injection h5 with h5
  rw [← h5] at h6
  simp only at h6
  have h7 : o.map Prod.fst = st'.out.map Prod.fst := by rw [h2]; rfl
  obtain ⟨e, he, hd⟩ := h3 (by decide)
  rw [h7, h6] at he
  simp only [List.mem_singleton] at he
  rw [he] at hd
  cases hd

/-- C63 for masks with one effect: it is the one reported. -/
theorem C63_single_effect_partial {σ} (S : Fa.Sys σ) (hS : Fa.Sound S) (dirOf : List UInt8 → Str) (r : FRec) (st : Fa.St σ)
    (hb : FBatch [r]) (h4 : Roomy [r]) (hl : st.buf.length = 4096) (hst : Fa.Still S dirOf [r])
    (ho : r.overflow = false) (k : Nat) (hk : r.mask.getLsbD k = true)
    (hone : ∀ j, j = 1 ∨ j = 6 ∨ j = 7 ∨ j = 8 ∨ j = 9 → r.mask.getLsbD j = true → j = k) :
    ∃ st' o e, doEvRecv S (.data (fbatch [r])) st = .ok (st', .pending) ∧ st'.out = st.out ++ o ∧
      fileEvents (o.map Prod.fst) = [e] ∧ (k = 8 → e.effect = .create) ∧ (k = 9 → e.effect = .destroy) ∧
      (k = 1 → e.effect = .modify) ∧ (k = 6 ∨ k = 7 → e.effect = .rename) := by
  obtain ⟨st', o, h1, h2, h3⟩ := C37_complete_in_order_partial S hS dirOf [r] st hb h4 hl hst (by simpa using ho) trivial
  have no : ∀ j, (j = 1 ∨ j = 6 ∨ j = 7 ∨ j = 8 ∨ j = 9) → j ≠ k → r.mask.getLsbD j = false := by
    intro j hj hne
    cases hx : r.mask.getLsbD j with
    | false => rfl
    | true => exact absurd (hone j hj hx) hne
  refine ⟨st', o, ⟨Fa.place dirOf r, r.effect, r.ptype, none⟩, h1, h2, ?_, ?_, ?_, ?_, ?_⟩
  · rw [h3, due_single _ (fun _ _ h => by cases h), Fa.due]
  all_goals simp only [FRec.effect, FRec.created, FRec.deleted, FRec.modified, FRec.movedFrom, FRec.movedTo, FRec.bit]
  · rintro rfl; simp only [hk, if_true]
  · rintro rfl
    simp only [hk, no 8 (by omega) (by omega), Bool.false_eq_true, if_false, if_true]
  · rintro rfl
    simp only [hk, no 8 (by omega) (by omega), no 9 (by omega) (by omega), Bool.false_eq_true, if_false, if_true]
  · rintro (rfl | rfl) <;>
      simp only [hk, no 8 (by omega) (by omega), no 9 (by omega) (by omega), no 1 (by omega) (by omega), Bool.false_eq_true, if_false,
        if_true, Bool.true_or, Bool.or_true]

example : (0x40000200#64 : BitVec 64).getLsbD 9 = true ∧
    ∀ j, j = 1 ∨ j = 6 ∨ j = 7 ∨ j = 8 ∨ j = 9 → (0x40000200#64 : BitVec 64).getLsbD j = true → j = 9 := by
  refine ⟨by decide, ?_⟩
  rintro j (rfl | rfl | rfl | rfl | rfl) <;> decide

/-! ## C43 -/

/-- C43, for every content of the buffer: when a directory-creation event is delivered, the directory has
been marked (`Watched`, whatever is true once resolving, checking and marking it has succeeded) or the
message before it is the 'not watched' warning for it. -/
theorem C43_marked_or_warned {σ} (S : Fa.Sys σ) (Watched : σ → Str → Prop)
    (hw : ∀ w p real w1 w2 w3, S.realpath w p = (some real, w1) → S.isDir w1 real = (true, w2) → S.mark w2 real = (true, w3) →
      Watched w3 p)
    (mem : List UInt8) (st st' : Fa.St σ) (res : Result) (h : doEvRecv S (.data mem) st = .ok (st', res)) (hout : st.out = [])
    (pre post : List (Ev × σ)) (e : Ev) (w : σ) (he : st'.out = pre ++ (e, w) :: post)
    (hc : e.effect = .create) (hd : e.ptype = .dir) :
    Watched w e.path ∨ ∃ pre' w', pre = pre' ++ [(notWatched e.path, w')] := by
  refine loop_announced S Watched hw _ _ _ _ st' res h ?_ pre e w post he hc hd
  intro a b c d hx
  simp [hout] at hx

/-- A world that remembers what is marked; the first mark fails. -/
def memSys : Fa.Sys (List Str × Nat) where
  realpath n p := (some p, n)
  isDir n _ := (true, n)
  mark n p := if n.2 = 0 then (false, (n.1, 1)) else (true, (p :: n.1, n.2))
  openByHandle n _ := ((11, 0), n)
  readlink n _ := (some b!"/r", n)
  rightFirst := true

/-- Two new directories: a warning and a marked one. -/
example : (∀ w p real w1 w2 w3, memSys.realpath w p = (some real, w1) → memSys.isDir w1 real = (true, w2) →
      memSys.mark w2 real = (true, w3) → p ∈ w3.1) ∧
    ∃ st, doEvRecv memSys (.data (fbatch [{ mask := 0x40000100#64, handle := [1], name := b!"a", pad := 3 },
      { mask := 0x40000100#64, handle := [1], name := b!"b", pad := 3 }])) { buf := List.replicate 4096 0, sys := ([], 0) } = .ok st ∧
    st.1.out = [(notWatched b!"/r/a", ([], 1)), ({ path := b!"/r/a", effect := .create, ptype := .dir }, ([], 1)),
      ({ path := b!"/r/b", effect := .create, ptype := .dir }, ([b!"/r/b"], 1))] := by
  refine ⟨?_, exists_ok (by decide +kernel)⟩
  intro w p real w1 w2 w3 h1 h2 h3
  simp only [memSys, Prod.mk.injEq, Option.some.injEq] at h1 h2 h3
  split at h3
  · simp at h3
  · simp only [Prod.mk.injEq, true_and] at h3
    rw [← h3, h1.1]; simp

/-! ## C30, fanotify -/

/-- C30, fanotify: a queue overflow record ends the batch; everything before it is reported, no message is
sent about it, everything behind it is dropped, and the watcher goes on. -/
theorem C30_fanotify_silent {σ} (S : Fa.Sys σ) (hS : Fa.Sound S) (dirOf : List UInt8 → Str) (pre post : List FRec) (x : FRec)
    (st : Fa.St σ) (hb : FBatch (pre ++ x :: post)) (h4 : Roomy (pre ++ x :: post))
    (hl : st.buf.length = 4096) (hn : NoSwap (pre ++ x :: post)) (hst : Fa.Still S dirOf pre)
    (ho : ∀ r ∈ pre, r.overflow = false) (hx : x.overflow = true) :
    ∃ st' o, doEvRecv S (.data (fbatch (pre ++ x :: post))) st = .ok (st', .wQOverflow) ∧ st'.out = st.out ++ o ∧
      fileEvents (o.map Prod.fst) = Fa.due (Fa.place dirOf) pre := by
  have hm : x.movedTo = false := ((hb.wf x (by simp)).ovf hx).2
  obtain ⟨w', h1, h2⟩ := run_due_then S dirOf _ pre (x :: post) (Nat.le_refl _) hst ho
    (by intro y l hy; injection hy with hy _; rw [← hy]; exact hm) st.sys
  rw [run_ovf S w' hx] at h1 h2
  have h3 := recv_run S hS _ hb h4 hn st hl
  rw [h2] at h3
  exact ⟨_, _, h3, rfl, by rw [h1]; simp [fileEvents]⟩

/-- C30, fanotify: the user is told nothing at all of a lone overflow record. -/
theorem C30_fanotify_refuted : ∃ st, doEvRecv faSys (.data (fbatch [{ mask := 0x4000#64 }])) faSt = .ok st ∧
    st.1.out = [] ∧ st.2 = .wQOverflow :=
  exists_ok (by decide +kernel)

example : FBatch ([faRecs[0]] ++ { mask := 0x4000#64 } :: [faRecs[1]]) ∧ Fa.Still faSys faDir [faRecs[0]] := by
  refine ⟨⟨?_, by decide +kernel⟩, faSys_still _ (by decide)⟩
  intro r hr
  simp only [List.cons_append, List.nil_append, List.mem_cons, List.not_mem_nil, or_false] at hr
  rcases hr with rfl | rfl | rfl <;> exact frec_wf (by decide)

end Verif.Props
