import Verif.Lemmas.Darwin2
/-!
# Properties of the Darwin back end (C44 - C48, C64, C65)
-/

namespace Verif.Props
open Verif Verif.Model Verif.Model.Darwin Verif.Spec Verif.Spec.Darwin Verif.Lemmas Verif.Lemmas.Darwin

private def dn (path : Str) (flags : BitVec 32) (missing : Bool := false) : Note := ⟨path, flags, missing⟩

/-! ## C44 -/

/-- C44. For every history of notifications and every path, the create and destroy events about the path
alternate, beginning with a creation. -/
theorem C44_darwin_alternates (ns : List Note) (p : Str) : AlternatesFrom true (lifeOf p (recvAll {} ns).out) :=
  (life_all ns (c := {}) ⟨trivial, by simp [lifeOf]⟩).1

/-- C44, for every schedule of deliveries, handling and closing. -/
theorem C44_darwin_alternates_any_schedule (as : List Act) (w : Watch) (h : run {} as = some w) (p : Str) :
    AlternatesFrom true (lifeOf p w.ctx.out) := by
  rw [(good_run as good_init h).ctx]; exact C44_darwin_alternates _ _

/-- The flag of creation is sticky: repeated with a modification, then with the removal, then again. -/
example : lifeOf b!"/a" (recvAll {} [dn b!"/a" 0x10100#32, dn b!"/a" 0x11100#32, dn b!"/b" 0x10100#32,
    dn b!"/a" 0x11300#32, dn b!"/a" 0x10200#32, dn b!"/a" 0x10100#32]).out = [true, false, true] := by decide +kernel
example : ∃ w, run {} [.notify [dn b!"/a" 0x10100#32], .deliver, .handle, .handle, .notify [dn b!"/a" 0x10300#32], .deliver,
    .handle, .handle, .release, .lock, .stop] = some w ∧ lifeOf b!"/a" w.ctx.out = [true, false] :=
  ⟨_, rfl, by decide +kernel⟩

/-! ## C45 -/

/-- C45, the full claim: every notification of a removal leads to a destroy event. -/
def C45_full : Prop := ∀ (ns : List Note) (n : Note), bit n 9 = true → ∃ e t, (recvAll {} (ns ++ [n])).out = (recvAll {} ns).out ++ t ∧
  e ∈ t ∧ e.path = n.path ∧ e.effect = .destroy

/-- The full claim does not hold of the code: the removal of a file that existed before watching started is
not reported at all. -/
theorem C45_full_refuted : ¬ C45_full := by
  intro h
  obtain ⟨e, t, h1, h2, _⟩ := h [] (dn b!"/old" 0x10200#32) (by decide)
  have : (recvAll {} ([] ++ [dn b!"/old" 0x10200#32])).out = [] := by decide +kernel
  rw [this] at h1
  have : t = [] := by
    have := congrArg List.length h1
    simp [recvAll] at this
    exact List.eq_nil_of_length_eq_zero this.symm
  rw [this] at h2
  exact absurd h2 (by simp)

/-- C45 (partial: exactly which removals are reported). A notification of a removal leads to a destroy event
exactly when the report so far says that the path was created while watching, or the same notification says
it was created. -/
theorem C45_darwin_destroy_partial (ns : List Note) (n : Note) (hb : bit n 9 = true) :
    ∃ t, (recvAll {} (ns ++ [n])).out = (recvAll {} ns).out ++ t ∧
      ((∃ e ∈ t, e.path = n.path ∧ e.effect = .destroy) ↔ KnownCreated n.path (recvAll {} ns).out ∨ bit n 8 = true) := by
  have hl : Life n.path (recvAll {} ns) := life_all ns ⟨trivial, by simp [lifeOf]⟩
  have hu : ¬ Unrecognised n := fun h => by
    have := h 9 (by omega) (by omega); rw [hb] at this; exact absurd this (by simp)
  rw [recvAll_snoc, known_iff hl]
  obtain ⟨r, h1, h2⟩ := one_events (recvAll {} ns) n hu
  refine ⟨_, h1, ?_⟩
  have hr : ∀ e ∈ r, e.effect = .rename := by
    rcases h2 with h | ⟨_, h⟩ <;> rw [h] <;> simp
  constructor
  · rintro ⟨e, he, hp, hd⟩
    simp only [List.mem_append] at he
    rcases he with ((he | he) | he) | he
    · split at he
      · simp only [List.mem_singleton] at he; rw [he] at hd; exact absurd hd (by simp)
      · exact absurd he (by simp)
    · split at he
      · rename_i hc; exact hc.2
      · exact absurd he (by simp)
    · split at he
      · simp only [List.mem_singleton] at he; rw [he] at hd; exact absurd hd (by simp)
      · exact absurd he (by simp)
    · rw [hr e he] at hd; exact absurd hd (by simp)
  · intro h
    refine ⟨⟨n.path, .destroy, typeTold n, none⟩, ?_, rfl, rfl⟩
    simp only [List.mem_append]
    refine .inl (.inl (.inr ?_))
    rw [if_pos ⟨hb, h⟩]
    simp

example : (recvAll {} [dn b!"/a" 0x10100#32, dn b!"/a" 0x10200#32]).out =
    [⟨b!"/a", .create, .file, none⟩, ⟨b!"/a", .destroy, .file, none⟩] := by decide +kernel

/-- A file that was removed and made again between two notifications comes as one notification with both
flags, and the last thing reported is that it was destroyed. -/
theorem C45_darwin_remade_file_reported_destroyed_partial (ns : List Note) (n : Note) (h8 : bit n 8 = true) (h9 : bit n 9 = true) :
    (lifeOf n.path (recvAll {} (ns ++ [n])).out).getLast? = some false := by
  have hl : Life n.path (recvAll {} ns) := life_all ns ⟨trivial, by simp [lifeOf]⟩
  have hu : ¬ Unrecognised n := fun h => by
    have := h 9 (by omega) (by omega); rw [h9] at this; exact absurd this (by simp)
  rw [recvAll_snoc]
  obtain ⟨r, h1, h2⟩ := one_events (recvAll {} ns) n hu
  rw [h1, if_pos (c := bit n 9 = true ∧ _) ⟨h9, .inr h8⟩]
  have hr : lifeOf n.path r = [] := by
    rcases h2 with h | ⟨_, h⟩ <;> rw [h] <;> simp [lifeOf]
  have hm : ∀ (q : Prop) [Decidable q], lifeOf n.path (if q then [⟨n.path, .modify, typeTold n, none⟩] else []) = [] := by
    intro q _; split <;> simp [lifeOf]
  simp only [lifeOf_append, hr, hm, List.append_nil]
  have : lifeOf n.path [⟨n.path, EffectType.destroy, typeTold n, none⟩] = [false] := by simp [lifeOf]
  rw [this, ← List.append_assoc, List.getLast?_concat]

example : (lifeOf b!"/a" (recvAll {} ([dn b!"/a" 0x10100#32] ++ [dn b!"/a" 0x10300#32])).out).getLast? = some false := by decide +kernel

/-! ## C46 -/

/-- C46. The rename events of every history are exactly the connected neighbours among its rename
notifications, old path first, each notification in at most one event. -/
theorem C46_darwin_pairs (ns : List Note) : Pairing (renames ns) (renameEvents (recvAll {} ns).out) := by
  obtain ⟨o, h1, h2, _⟩ := all_rename ns {}
  have : renameEvents ([] : List Ev) = [] := rfl
  rw [h1]
  simpa [this] using h2 rfl

/-- The pairing is determined by the notifications. -/
theorem C46_darwin_pairs_unique (ns : List Note) (o : List (Str × Str)) (h : Pairing (renames ns) o) :
    renameEvents (recvAll {} ns).out = o := pairing_unique _ _ (C46_darwin_pairs ns) _ h

/-- Two notifications for each event at least. -/
theorem C46_darwin_two_each (ns : List Note) : 2 * (renameEvents (recvAll {} ns).out).length ≤ (renames ns).length := by
  have : ∀ l o, Pairing l o → 2 * o.length ≤ l.length := by
    intro l o h
    induction h with
    | nil => simp
    | last => simp
    | skip _ _ _ _ _ _ ih => simp only [List.length_cons] at ih ⊢; omega
    | pair _ _ _ _ _ _ ih => simp only [List.length_cons] at ih ⊢; omega
  exact this _ _ (C46_darwin_pairs ns)

/-- Rename events are the only ones with an associated path, and all of them have one, with the same effect
and type of path. -/
theorem C46_darwin_shape (ns : List Note) : ∀ e ∈ (recvAll {} ns).out,
    (e.effect = .rename → ∃ q, e.assoc = some ⟨q, .rename, e.ptype⟩) ∧ (e.effect ≠ .rename → e.assoc = none) := by
  have : ∀ (ns : List Note) (c : Ctx), (∀ e ∈ c.out,
      (e.effect = .rename → ∃ q, e.assoc = some ⟨q, .rename, e.ptype⟩) ∧ (e.effect ≠ .rename → e.assoc = none)) →
      ∀ e ∈ (recvAll c ns).out,
      (e.effect = .rename → ∃ q, e.assoc = some ⟨q, .rename, e.ptype⟩) ∧ (e.effect ≠ .rename → e.assoc = none) := by
    intro ns
    induction ns with
    | nil => intro c h; exact h
    | cons n ns ih =>
      intro c h
      refine ih (recvOne c n) ?_
      intro e he
      by_cases hu : Unrecognised n
      · have := (unrec_iff n).2 hu
        simp only [recvOne, this, Bool.not_false, if_true, Ctx.send, List.mem_append, List.mem_singleton] at he
        rcases he with he | rfl
        · exact h e he
        · simp
      · obtain ⟨r, h1, h2⟩ := one_events c n hu
        rw [h1] at he
        simp only [List.mem_append] at he
        rcases he with he | ((he | he) | he) | he
        · exact h e he
        · split at he
          · simp only [List.mem_singleton] at he; rw [he]; simp
          · exact absurd he (by simp)
        · split at he
          · simp only [List.mem_singleton] at he; rw [he]; simp
          · exact absurd he (by simp)
        · split at he
          · simp only [List.mem_singleton] at he; rw [he]; simp
          · exact absurd he (by simp)
        · rcases h2 with h2 | ⟨_, h2⟩
          · rw [h2] at he; exact absurd he (by simp)
          · rw [h2] at he; simp only [List.mem_singleton] at he; rw [he]; simp
  exact this ns {} (by simp)

example : renameEvents (recvAll {} [dn b!"/a" 0x10800#32, dn b!"/x" 0x10100#32, dn b!"/b" 0x10800#32 true,
    dn b!"/c" 0x10800#32, dn b!"//c" 0x10800#32 true, dn b!"/d" 0x10800#32 true]).out =
    [(b!"/a", b!"/b"), (b!"//c", b!"/d")] := by decide +kernel

/-! ## C47 -/

/-- C47, unrecognised effects. A notification whose flags do not say what happened is reported, as one event
with the effect `other`. -/
theorem C47_darwin_unrecognised (c : Ctx) (n : Note) (h : Unrecognised n) :
    (recvOne c n).out = c.out ++ [⟨n.path, .other, typeTold n, none⟩] := by
  have := (unrec_iff n).2 h
  simp [recvOne, this, Ctx.send, ptype_told]

open Classical in
/-- C47. After every history, for every flag word: the events of a notification are, in this order, a creation
(if the flags say so and the report so far does not have the path as created), a destruction (if the flags say
so and the path is reported as created), a modification (if contents, Finder information, owner or extended
attributes were modified) and at most one rename (if the flags say so); each has the path of the notification
and the type its flags tell. -/
theorem C47_darwin_flags (ns : List Note) (n : Note) (hu : ¬ Unrecognised n) :
    ∃ r : List Ev, (recvAll {} (ns ++ [n])).out = (recvAll {} ns).out ++
      ((if bit n 8 = true ∧ ¬ KnownCreated n.path (recvAll {} ns).out then [⟨n.path, .create, typeTold n, none⟩] else []) ++
       (if bit n 9 = true ∧ (KnownCreated n.path (recvAll {} ns).out ∨ bit n 8 = true) then
          [⟨n.path, .destroy, typeTold n, none⟩] else []) ++
       (if Modified n then [⟨n.path, .modify, typeTold n, none⟩] else []) ++ r) ∧
      (r = [] ∨ (bit n 11 = true ∧ ∃ old, r = [⟨old, .rename, typeTold n, some ⟨n.path, .rename, typeTold n⟩⟩])) := by
  have hl : Life n.path (recvAll {} ns) := life_all ns ⟨trivial, by simp [lifeOf]⟩
  obtain ⟨r, h1, h2⟩ := one_events (recvAll {} ns) n hu
  refine ⟨r, ?_, h2.imp id (fun h => ⟨h.1, _, h.2⟩)⟩
  rw [recvAll_snoc, h1]
  simp only [known_iff hl]

/-- C47, metadata. A notification that tells only that the inode's metadata changed is not reported. -/
theorem C47_darwin_metadata (ns : List Note) (n : Note) (h : bit n 10 = true)
    (ho : ∀ k, 8 ≤ k → k ≤ 15 → k ≠ 10 → bit n k = false) : (recvAll {} (ns ++ [n])).out = (recvAll {} ns).out := by
  have hu : ¬ Unrecognised n := fun hu => by
    have := hu 10 (by omega) (by omega); rw [h] at this; exact absurd this (by simp)
  obtain ⟨r, h1, h2⟩ := C47_darwin_flags ns n hu
  rw [h1]
  have h8 := ho 8 (by omega) (by omega) (by omega)
  have h9 := ho 9 (by omega) (by omega) (by omega)
  have h11 := ho 11 (by omega) (by omega) (by omega)
  have hm : ¬ Modified n := by
    rintro (h | h | h | h)
    · rw [ho 12 (by omega) (by omega) (by omega)] at h; exact absurd h (by simp)
    · rw [ho 13 (by omega) (by omega) (by omega)] at h; exact absurd h (by simp)
    · rw [ho 14 (by omega) (by omega) (by omega)] at h; exact absurd h (by simp)
    · rw [ho 15 (by omega) (by omega) (by omega)] at h; exact absurd h (by simp)
  have hr : r = [] := by
    rcases h2 with h | ⟨h, _⟩
    · exact h
    · rw [h11] at h; exact absurd h (by simp)
  simp [h8, h9, hm, hr]

example : (recvAll {} [dn b!"/a" 0x11b00#32]).out =
    [⟨b!"/a", .create, .file, none⟩, ⟨b!"/a", .destroy, .file, none⟩, ⟨b!"/a", .modify, .file, none⟩] := by decide +kernel
example : (recvAll {} [dn b!"/a" 0x20400#32]).out = [] := by decide +kernel
example : (recvAll {} [dn b!"/a" 0x20001#32]).out = [⟨b!"/a", .other, .dir, none⟩] := by decide +kernel

/-! ## C48 -/

/-- C48, the full claim: when the stream is closed, everything the system queued has been handled. -/
def C48_full : Prop := ∀ (as : List Act) (w : Watch), run {} as = some w → w.pc = .closed → w.handled = (queued as).flatten

/-- The full claim does not hold of the code: the batches flushed while closing find the mutex taken by the
thread that closes, and are thrown away. -/
theorem C48_full_refuted : ¬ C48_full := by
  intro h
  have := h [.notify [dn b!"/a" 0x10100#32], .release, .lock, .deliver, .stop] _ rfl rfl
  exact absurd this (by decide +kernel)

/-- The same when two threads of the system hand over batches at the same time, without any closing. -/
theorem C48_overlap_dropped : ∃ w, run {} [.notify [dn b!"/a" 0x10100#32], .notify [dn b!"/b" 0x10100#32], .deliver, .deliver,
    .handle, .handle, .release, .lock, .stop] = some w ∧ w.ctx.out = [⟨b!"/a", .create, .file, none⟩] ∧
    w.dropped = [[dn b!"/b" 0x10100#32]] := ⟨_, rfl, by decide +kernel, rfl⟩

/-- C48 (partial: for the batches that are not dropped). For every schedule: when the stream is closed, no
batch is half handled; what was handled are whole batches, in the order they were queued; every batch queued
was either handled or dropped, none twice; and the events sent are those of the batches handled. -/
theorem C48_darwin_close_partial (as : List Act) (w : Watch) (h : run {} as = some w) (hc : w.pc = .closed) :
    ∃ acc, w.handled = acc.flatten ∧ List.Sublist acc (queued as) ∧ List.Perm (acc ++ w.dropped) (queued as) ∧
      w.ctx.out = (recvAll {} acc.flatten).out := by
  have g := good_run as good_init h
  obtain ⟨acc, h1, h2, h3⟩ := g.split
  have hp := closed_pending (w := {}) (by simp) h hc
  rw [g.mutex (.inr hc)] at h1
  rw [hp] at h2 h3
  simp only [Option.getD_none, List.append_nil, List.nil_append] at h1 h2 h3
  exact ⟨acc, h1, h3, h2, by rw [g.ctx, h1]⟩

/-- C48 (partial): if nothing was dropped, everything was delivered before the stream was closed. -/
theorem C48_darwin_all_delivered_partial (as : List Act) (w : Watch) (h : run {} as = some w) (hc : w.pc = .closed)
    (hd : w.dropped = []) : w.handled = (queued as).flatten ∧ w.ctx.out = (recvAll {} (queued as).flatten).out := by
  obtain ⟨acc, h1, h2, h3, h4⟩ := C48_darwin_close_partial as w h hc
  rw [hd, List.append_nil] at h3
  have := h2.eq_of_length h3.length_eq
  rw [this] at h1 h4
  exact ⟨h1, h4⟩

/-- C48 (partial), the other direction: once the closing thread has the mutex, the callback is not called
any more, whatever the system does. -/
theorem C48_darwin_quiet_partial (as bs : List Act) (w w' : Watch) (h : run {} as = some w)
    (hp : w.pc = .flushing ∨ w.pc = .closed) (h' : run w bs = some w') : w'.ctx.out = w.ctx.out := by
  rw [quiet_run bs ((good_run as good_init h).mutex hp) hp h']

example : ∃ w, run {} [.notify [dn b!"/a" 0x10100#32, dn b!"/b" 0x10100#32], .deliver, .handle, .release, .handle, .handle, .lock,
    .stop] = some w ∧ w.pc = .closed ∧ w.dropped = [] ∧ w.ctx.out.length = 2 := ⟨_, rfl, rfl, rfl, by decide +kernel⟩

/-! ## C64 -/

/-- C64, the full claim: a watch that could not be opened does not wait for its owner. -/
def C64_full : Prop := ∀ found, Phase.waitRelease ∉ (watch false found).1

/-- The full claim does not hold of the code: the watch waits for the release before it answers. -/
theorem C64_full_refuted : ¬ C64_full := fun h => absurd (h .pending) (by decide)

/-- C64 (partial: only in the answer given after the owner's release). The watch answers `true` exactly when
the stream was opened and the release was seen. -/
theorem C64_darwin_result_partial (opened : Bool) (found : SemState) :
    (watch opened found).2 = true ↔ opened = true ∧ found ≠ .error := by
  cases opened <;> cases found <;> simp [watch]

example : (watch true .pending).2 = true ∧ (watch false .released).2 = false := by decide

/-! ## C65 -/

/-- C65, the full claim: the rename events are exactly the moves inside the watched tree. -/
def C65_full : Prop := ∀ ms : List Move, renameEvents (recvAll {} (movesNotes false ms)).out = movesPairs ms

/-- The full claim does not hold of the code: a file `/w/x` moved out of the tree and then a rename of `/w/a`
to `/w/b` are reported as a rename of `/w/x` to `/w/a`. -/
theorem C65_full_refuted : ¬ C65_full := by
  intro h
  have := h [.away b!"/w/x", .within b!"/w/a" b!"/w/b"]
  exact absurd this (by decide +kernel)

theorem C65_mispaired : renameEvents (recvAll {} (movesNotes false [.away b!"/w/x", .within b!"/w/a" b!"/w/b"])).out =
    [(b!"/w/x", b!"/w/a")] := by decide +kernel

/-- C65 (partial: moves inside the tree only). Any number of moves inside the tree, one after the other, is
reported exactly. -/
theorem C65_darwin_moves_partial (ms : List (Str × Str)) (h : ∀ m ∈ ms, m.1 ≠ [] ∧ squeeze m.1 ≠ squeeze m.2) :
    renameEvents (recvAll {} (movesNotes false (ms.map (fun m => .within m.1 m.2)))).out = ms := by
  apply C46_darwin_pairs_unique
  rw [renames_moves]
  exact pairing_moves ms h

/-- C65: a move out of or into the tree alone is not reported as anything. -/
theorem C65_darwin_lone_moves_silent_partial (b : Bool) (p : Str) :
    (recvAll {} ((Move.away p).notes b)).out = [] ∧ (recvAll {} ((Move.hither p).notes b)).out = [] := by
  have : (recvOne {} { path := p, flags := 0x10800#32, missing := b }).out = [] := by
    have h1 : anyBit 0x10800#32 effectAny = true := by decide
    have h2 : anyBit 0x10800#32 effectCreate = false := by decide
    have h3 : anyBit 0x10800#32 effectRemove = false := by decide
    have h4 : anyBit 0x10800#32 effectModify = false := by decide
    have h5 : anyBit 0x10800#32 effectRename = true := by decide
    simp [recvOne, onCreate, onRemove, onModify, onRename, h1, h2, h3, h4, h5]
  exact ⟨this, this⟩

example : renameEvents (recvAll {} (movesNotes false [.within b!"/a" b!"/b", .within b!"/c" b!"/a"])).out =
    [(b!"/a", b!"/b"), (b!"/c", b!"/a")] := by decide +kernel

end Verif.Props
