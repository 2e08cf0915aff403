import Verif.Lemmas.Windows
/-!
# Properties of the Windows back end (C49 - C51, C66 - C68)
-/

namespace Verif.Props
open Verif Verif.Model Verif.Model.Windows Verif.Spec.Windows Verif.Lemmas.Windows

/-! ## C49 -/

/-- The events of a batch the system delivered: the buffer begins with the records (whatever is left in it
from earlier batches follows) and is as long as they are. -/
def Delivers (isDir : WStr → Option Bool) (base : WStr) (rs : List Rec) (evs : List WEv) : Prop :=
  ∀ rest fuel, rs.length ≤ fuel → sendBatch isDir base (encode rs ++ rest) (encode rs).length fuel = some (.ok evs)

/-- C49, the full claim: every notification of a batch is told of by some event. -/
def C49_full : Prop := ∀ (isDir : WStr → Option Bool) (base : WStr) (rs : List Rec), rs ≠ [] → (∀ r ∈ rs, r.Fits) →
  ∃ evs, Delivers isDir base rs evs ∧ ∀ r ∈ rs, ∃ e ∈ evs, Tells e (r.path base)

theorem batch {isDir : WStr → Option Bool} {base : WStr} {rs : List Rec} (hne : rs ≠ []) (hf : ∀ r ∈ rs, r.Fits)
    (h16 : 16 ≤ (encode rs).length) : Delivers isDir base rs (handleAll isDir base {} rs) := by
  intro rest fuel hfuel
  have := loop_records isDir base _ h16 rs [] rest {} [] fuel hne hf hfuel
  simpa [sendBatch] using this

theorem delivers_unique {isDir : WStr → Option Bool} {base : WStr} {rs : List Rec} {a b : List WEv}
    (ha : Delivers isDir base rs a) (hb : Delivers isDir base rs b) : a = b := by
  have h1 := ha [] rs.length (Nat.le_refl _)
  rw [hb [] rs.length (Nat.le_refl _)] at h1
  simpa using h1.symm

/-- The full claim does not hold of the code: when a batch ends between the two halves of a rename, the old
name is forgotten and nothing is reported (and the new name, in the next batch, is not reported either). -/
theorem C49_full_refuted : ¬ C49_full := by
  intro h
  obtain ⟨evs, h1, h2⟩ := h (fun _ => some false) [67, 58] [⟨4, [97, 98]⟩] (by simp)
    (by intro r hr; simp only [List.mem_singleton] at hr; subst hr; constructor <;> decide)
  have h3 := delivers_unique h1 (batch (by simp)
    (by intro r hr; simp only [List.mem_singleton] at hr; subst hr; constructor <;> decide) (by decide))
  have : handleAll (fun _ => some false) [67, 58] {} [⟨4, [97, 98]⟩] = [] := by decide +kernel
  rw [this] at h3
  rw [h3] at h2
  obtain ⟨e, he, _⟩ := h2 ⟨4, [97, 98]⟩ (by simp)
  exact absurd he (by simp)

/-- Another way it fails: a batch of one notification, of a one-character name, is shorter than the structure
the loop's condition asks for, and is not reported. -/
theorem C49_short_name_lost (isDir : WStr → Option Bool) (base : WStr) (a : Nat) (c : UInt16) :
    Delivers isDir base [⟨a, [c]⟩] [] := by
  intro rest fuel hfuel
  cases fuel with
  | zero => simp at hfuel
  | succ fuel => rfl

/-- C49 (partial: batches of at least 16 bytes in which each rename has both halves before the next rename
starts). Every such batch is reported completely and in order, the halves of a rename, in either order, folded
into one event; reading never leaves the part of the buffer that was filled. -/
theorem C49_windows_batch_partial (isDir : WStr → Option Bool) (base : WStr) (rs : List Rec) (evs : List WEv)
    (hf : ∀ r ∈ rs, r.Fits) (h16 : 16 ≤ (encode rs).length) (h : Reports isDir base rs evs) :
    Delivers isDir base rs evs := by
  rw [← reports_handle isDir base h]
  exact batch (by rintro rfl; simp [encode] at h16) hf h16

/-- C49 (partial: the changes that are not renames). In every batch of at least 16 bytes they are all
reported, in order and once, whatever renames are around them, and no event tells of a path that is not in the
batch. -/
theorem C49_windows_plain_partial (isDir : WStr → Option Bool) (base : WStr) (rs : List Rec)
    (hf : ∀ r ∈ rs, r.Fits) (h16 : 16 ≤ (encode rs).length) :
    ∃ evs, Delivers isDir base rs evs ∧
      evs.filter (fun e => e.effect != .rename) = (rs.filter (fun r => decide (Plain r))).map (plainEvent isDir base) ∧
      ∀ e ∈ evs, ∀ p, Tells e p → ∃ r ∈ rs, p = r.path base := by
  refine ⟨_, batch (by rintro rfl; simp [encode] at h16) hf h16, plain_always isDir base rs {}, ?_⟩
  intro e he p hp
  have := tells_batch isDir base rs {} [] (by simp) (by simp) e he p hp
  simpa using this

private def wdemo : List Rec := [⟨1, [97]⟩, ⟨4, [98, 99]⟩, ⟨3, [100]⟩, ⟨5, [101]⟩, ⟨2, [102]⟩]
private def wdir : WStr → Option Bool := fun p => some (p == [67, 92, 101])
example : sendBatch wdir [67] (encode wdemo ++ [1, 2, 3]) (encode wdemo).length 5 = some (.ok
    [⟨[67, 92, 97], .create, .file, none⟩, ⟨[67, 92, 100], .modify, .file, none⟩,
     ⟨[67, 92, 98, 99], .rename, .file, some ([67, 92, 101], .dir)⟩, ⟨[67, 92, 102], .destroy, .file, none⟩]) := by decide +kernel
example : 16 ≤ (encode wdemo).length ∧ ∀ r ∈ wdemo, r.Fits := by
  refine ⟨by decide, ?_⟩
  intro r hr
  simp only [wdemo, List.mem_cons, List.mem_nil_iff, or_false] at hr
  rcases hr with rfl | rfl | rfl | rfl | rfl <;> (constructor <;> decide)
example : ∃ evs, Reports wdir [67] wdemo evs ∧ evs.length = 4 :=
  ⟨_, .plain _ _ _ (by decide) (.oldNew ⟨4, [98, 99]⟩ ⟨5, [101]⟩ [⟨3, [100]⟩] _ _ rfl rfl
    (by intro p hp; simp only [List.mem_singleton] at hp; subst hp; decide) (.plain _ _ _ (by decide) .nil)), rfl⟩

/-! ## C50 -/

/-- C50, the full claim: handling any batch ends, and so does the first round of sending. -/
def C50_full : Prop :=
  (∀ (isDir : WStr → Option Bool) (base : WStr) (m : List UInt8) (ready : Nat), ∃ fuel, (sendBatch isDir base m ready fuel).isSome = true) ∧
  (∀ a, ∃ fuel, (firstLoop (start a) fuel).isSome = true)

/-- The full claim does not hold of the code, in two ways. A record with a name of an odd number of bytes is
looked at for ever... -/
theorem C50_odd_name_never_ends (isDir : WStr → Option Bool) (base : WStr) (fuel : Nat) :
    sendBatch isDir base (le32 0 ++ le32 1 ++ le32 3 ++ [97, 0, 98]) 16 fuel = none :=
  loop_stuck isDir base _ 16 0 0 1 3 (by omega) (by decide) (by decide) (by decide) rfl fuel {} []

/-- ... and a first read that is answered at once is reported again and again, and the watch can not be
closed. -/
theorem C50_first_loop_never_ends (n : Nat) (evs : List WEv) (h : n ≠ 0) (fuel : Nat) :
    firstLoop (start (.ok n evs)) fuel = none := by
  have : ∀ (fuel : Nat) (w : Win), w.valid = true → w.ready ≠ 0 → firstLoop w fuel = none := by
    intro fuel
    induction fuel with
    | zero => intro _ _ _; rfl
    | succ fuel ih =>
      intro w hv hr
      rw [firstLoop, if_pos (by simp [hv, hr])]
      exact ih _ (by simp [send, hv]) (by simpa [send, hv] using hr)
  exact this fuel _ rfl h

theorem C50_full_refuted : ¬ C50_full := by
  intro h
  obtain ⟨fuel, hf⟩ := h.1 (fun _ => none) [] (le32 0 ++ le32 1 ++ le32 3 ++ [97, 0, 98]) 16
  rw [C50_odd_name_never_ends] at hf
  exact absurd hf (by simp)

/-- C50 (partial: names of an even number of bytes). Whatever the bytes of the buffer: unless a record with a
name of an odd number of bytes is reached, the loop ends, after at most as many turns as the buffer has
bytes (and two). -/
theorem C50_windows_ends_partial (isDir : WStr → Option Bool) (base : WStr) (m : List UInt8) (ready : Nat)
    (even : ∀ o n, Reaches m o → rd32 m (o + 8) = some n → n % 2 = 0) :
    (sendBatch isDir base m ready (m.length + 2)).isSome = true :=
  loop_ends isDir base m ready even (m.length + 1) 0 {} [] .first (by omega)

/-- C50 (partial): a batch the system encodes ends after one turn for each notification. -/
theorem C50_windows_batch_ends_partial (isDir : WStr → Option Bool) (base : WStr) (rs : List Rec) (rest : List UInt8)
    (hf : ∀ r ∈ rs, r.Fits) (hne : rs ≠ []) :
    (sendBatch isDir base (encode rs ++ rest) (encode rs).length rs.length).isSome = true := by
  by_cases h16 : 16 ≤ (encode rs).length
  · rw [batch hne hf h16 rest rs.length (Nat.le_refl _)]; rfl
  · cases rs with
    | nil => exact absurd rfl hne
    | cons r rs => simp [sendBatch, sendLoop, h16]

/-- C50 (partial): with a first read that is not answered at once, the first round ends. -/
theorem C50_first_loop_ends_partial (a : ReadAnswer) (h : ∀ n evs, a = .ok n evs → n = 0) :
    firstLoop (start a) 1 = some (start a) := by
  cases a with
  | ok n evs => have := h n evs rfl; subst this; rfl
  | pendingError => rfl
  | otherError => rfl

example : ∀ o n, Reaches ([] : List UInt8) o → rd32 [] (o + 8) = some n → n % 2 = 0 := by
  intro o n _ h; have := rd32_bound h; simp at this
example : sendBatch wdir [67] (le32 0 ++ le32 9 ++ le32 4 ++ [97, 0, 98, 0]) 16 1 =
    some (.ok [⟨[67, 92, 97, 98], .other, .file, none⟩]) := by decide +kernel

/-! ## C51 -/

/-- C51, the full claim: copying the path is safe, whatever its lengths. -/
def C51_full : Prop := ∀ wide narrow : Nat, copyPath wide narrow = .ok ()

/-- The full claim does not hold of the code: a path of 513 ordinary characters is written past the buffer. -/
theorem C51_full_refuted : ¬ C51_full := fun h => absurd (h 513 513) (by decide)

/-- C51 (partial: exactly the paths for which it is safe). -/
theorem C51_windows_copy_partial (wide narrow : Nat) :
    copyPath wide narrow = .ok () ↔ narrow ≤ 512 ∧ narrow ≤ 2 * wide + 2 := by
  unfold copyPath
  by_cases h1 : narrow > 2 * 256
  · rw [if_pos h1]
    simp only [reduceCtorEq, false_iff]
    omega
  · rw [if_neg h1]
    by_cases h2 : narrow > 2 * (wide + 1)
    · rw [if_pos h2]
      simp only [reduceCtorEq, false_iff]
      omega
    · rw [if_neg h2]
      simp only [true_iff]
      omega

example : copyPath 20 20 = .ok () ∧ copyPath 3 9 ≠ .ok () := by decide

/-! ## C66 -/

/-- A message that tells that reading failed. -/
def TellsFailure (l : List Said) : Prop := Said.readPending ∈ l ∨ Said.readFailed ∈ l

/-- C66, the full claim: whatever the system answers, either the system has been asked for changes, or the
user was told that reading failed. -/
def C66_full : Prop := ∀ (cs : List Completion) (w : Win), turns (start (.ok 0 [])) cs = some w → w.armed = true ∨ TellsFailure w.said

/-- The full claim does not hold of the code: after an overflow (a completed read without any bytes) the system
is not asked again, and the user is not told. -/
theorem C66_full_refuted : ¬ C66_full := by
  intro h
  have := h [.done 0 [] []] _ rfl
  rcases this with h | h | h
  · exact absurd h (by decide)
  · exact absurd h (by decide)
  · exact absurd h (by decide)

/-- From then on nothing is ever said again, whatever happens to the files. -/
theorem C66_deaf_for_ever (w : Win) (h : w.armed = false) (cs : List Completion) (w' : Win) (hr : turns w cs = some w') : w' = w := by
  induction cs with
  | nil => simp only [turns] at hr; injection hr with hr; exact hr.symm
  | cons c cs ih =>
    cases c with
    | nothing => simp only [turns, turn] at hr; exact ih hr
    | failed => simp [turns, turn, h] at hr
    | done n evs rs => simp [turns, turn, h] at hr

private theorem pump_armed : ∀ (as : List ReadAnswer) (w w' : Win), pump w as = some w' →
    (w.valid = true → w.ready = 0 → w.armed = true ∨ TellsFailure w.said) → (w.valid = false → TellsFailure w.said) →
    (w'.armed = true ∨ TellsFailure w'.said) ∧ (w'.valid = false → TellsFailure w'.said) := by
  intro as
  induction as with
  | nil =>
    intro w w' h h1 h2
    simp only [pump] at h
    split at h
    · exact absurd h (by simp)
    · rename_i hc
      injection h with h; subst h
      refine ⟨?_, h2⟩
      cases hv : w.valid with
      | false => exact .inr (h2 hv)
      | true => exact h1 hv (by simpa [hv] using hc)
  | cons a as ih =>
    intro w w' h h1 h2
    simp only [pump] at h
    split at h
    · rename_i hc
      have hv : w.valid = true := by simp only [Bool.and_eq_true] at hc; exact hc.1
      cases a with
      | ok n evs =>
        refine ih _ _ h ?_ ?_
        · intro _ _; left; simp [recv, send, hv]
        · intro hf; simp [recv, send, hv] at hf
      | pendingError =>
        have hm : TellsFailure (recv (send w) .pendingError).said := by
          left; simp [recv, send, hv]
        exact ih _ _ h (fun _ _ => .inr hm) (fun _ => hm)
      | otherError =>
        have hm : TellsFailure (recv (send w) .otherError).said := by
          right; simp [recv, send, hv]
        exact ih _ _ h (fun _ _ => .inr hm) (fun _ => hm)
    · rename_i hc
      injection h with h; subst h
      refine ⟨?_, h2⟩
      cases hv : w.valid with
      | false => exact .inr (h2 hv)
      | true => exact h1 hv (by simpa [hv] using hc)

/-- Another way it fails: a read that was queued and then fails (for instance because the watched directory was
removed) is neither repeated nor told. -/
theorem C66_failed_read_is_silent (w : Win) (h : w.armed = true) :
    turns w [.failed] = some { w with armed := false } := by simp [turns, turn, h]

/-- C66 (partial: without overflows and failures of queued reads). If no completed read is empty and none has failed:
whatever the system answers, either it has been asked for changes or the user was told that reading failed. -/
theorem C66_windows_not_deaf_partial (cs : List Completion) (w : Win) (h : turns (start (.ok 0 [])) cs = some w)
    (hc : ∀ n evs rs, Completion.done n evs rs ∈ cs → n ≠ 0) (hnf : Completion.failed ∉ cs) : w.armed = true ∨ TellsFailure w.said := by
  have : ∀ (cs : List Completion) (w0 w : Win), turns w0 cs = some w → (∀ n evs rs, Completion.done n evs rs ∈ cs → n ≠ 0) → Completion.failed ∉ cs →
      (w0.armed = true ∨ TellsFailure w0.said) → (w0.valid = false → TellsFailure w0.said) → w.armed = true ∨ TellsFailure w.said := by
    intro cs
    induction cs with
    | nil => intro w0 w h _ _ h1 _; simp only [turns] at h; injection h with h; rw [← h]; exact h1
    | cons c cs ih =>
      intro w0 w h hc hnf h1 h2
      simp only [turns] at h
      have hnf' : Completion.failed ∉ cs := fun hm => hnf (by simp [hm])
      cases ht : turn w0 c with
      | none => rw [ht] at h; exact absurd h (by simp)
      | some w1 =>
        rw [ht] at h
        have hc' : ∀ n evs rs, Completion.done n evs rs ∈ cs → n ≠ 0 := fun n evs rs hm => hc n evs rs (by simp [hm])
        cases c with
        | nothing => simp only [turn] at ht; injection ht with ht; subst ht; exact ih _ _ h hc' hnf' h1 h2
        | failed => exact absurd (by simp) hnf
        | done n evs rs =>
          simp only [turn] at ht
          split at ht
          · have hn := hc n evs rs (by simp)
            obtain ⟨h3, h4⟩ := pump_armed rs _ _ ht (fun _ h0 => absurd h0 hn) h2
            exact ih _ _ h hc' hnf' h3 h4
          · exact absurd ht (by simp)
  exact this cs _ _ h hc hnf (.inl rfl) (by simp [start, recv])

/-- The completed reads of a history: bytes and events. -/
def completed : List Completion → List (List WEv)
  | [] => []
  | .nothing :: cs => completed cs
  | .failed :: cs => completed cs
  | .done _ evs _ :: cs => evs :: completed cs

/-- A history without errors: no queued read fails, every completed read has bytes, and the next read is accepted. -/
def Smooth (cs : List Completion) : Prop := Completion.failed ∉ cs ∧ ∀ n evs rs, Completion.done n evs rs ∈ cs → n ≠ 0 ∧ ∃ old, rs = [.ok 0 old]

private theorem smooth_run : ∀ (cs : List Completion) (w : Win), Smooth cs → w.valid = true → w.armed = true →
    ∃ w', turns w cs = some w' ∧ w'.valid = true ∧ w'.armed = true ∧ w'.said = w.said ++ (completed cs).flatten.map .ev := by
  intro cs
  induction cs with
  | nil => intro w _ hv ha; exact ⟨w, rfl, hv, ha, by simp [completed]⟩
  | cons c cs ih =>
    intro w hs hv ha
    have hs' : Smooth cs := ⟨fun hm => hs.1 (by simp [hm]), fun n evs rs hm => hs.2 n evs rs (by simp [hm])⟩
    cases c with
    | nothing =>
      obtain ⟨w', h⟩ := ih w hs' hv ha
      exact ⟨w', by simpa [turns, turn, completed] using h⟩
    | failed => exact absurd (by simp) hs.1
    | done n evs rs =>
      obtain ⟨hn, old, rfl⟩ := hs.2 n evs rs (by simp)
      have : turn w (.done n evs [.ok 0 old]) =
          some { w with ready := 0, evs := old, armed := true, said := w.said ++ evs.map .ev } := by
        simp [turn, ha, pump, hv, hn, recv, send]
      obtain ⟨w', h1, h2, h3, h4⟩ := ih { w with ready := 0, evs := old, armed := true, said := w.said ++ evs.map .ev } hs' hv rfl
      refine ⟨w', by simp [turns, this, h1], h2, h3, ?_⟩
      rw [h4]
      simp [completed, List.append_assoc]

/-- C66 (partial: without errors and overflows). Every batch of every completed read is reported, in order and
once, with nothing in between. -/
theorem C66_windows_all_batches_partial (cs : List Completion) (hs : Smooth cs) :
    ∃ w, turns (start (.ok 0 [])) cs = some w ∧ w.armed = true ∧ w.said = (completed cs).flatten.map .ev := by
  obtain ⟨w, h1, _, h3, h4⟩ := smooth_run cs (start (.ok 0 [])) hs rfl rfl
  exact ⟨w, h1, h3, by simpa [start, recv] using h4⟩

private def we (p : WStr) : WEv := ⟨p, .create, .file, none⟩
example : (turns (start (.ok 0 [])) [.nothing, .done 20 [we [97]] [.ok 0 []], .done 44 [we [98], we [99]] [.ok 0 []]]).map Win.said =
    some [.ev (we [97]), .ev (we [98]), .ev (we [99])] := by decide
example : (turns (start (.ok 0 [])) [.done 20 [we [97]] [.otherError]]).map (fun w => (w.armed, w.said)) =
    some (false, [.ev (we [97]), .readFailed]) := by decide

/-! ## C67 -/

/-- C67, the full claim: every handle made is closed. -/
def C67_full : Prop := ∀ a : OpenAnswers, ∀ h ∈ (construct a).1, h ∈ destruct (construct a).1

/-- The full claim does not hold of the code: the handle of the watched directory is never closed. -/
theorem C67_full_refuted : ¬ C67_full := fun h => absurd (h ⟨true, true, true, true, true⟩ .path (by decide)) (by decide)

/-- C67 (partial: the other two handles). The handles left open are exactly the one of the directory, if it
was opened; none is closed that was not made, and none twice. -/
theorem C67_windows_handles_partial (a : OpenAnswers) :
    (∀ h, h ∈ (construct a).1 ∧ h ∉ destruct (construct a).1 ↔ h = .path ∧ a.path = true) ∧
      (destruct (construct a).1).Sublist (construct a).1 ∧ (construct a).1.Nodup := by
  obtain ⟨e, p, c, t, r⟩ := a
  refine ⟨?_, List.filter_sublist, ?_⟩
  · intro h
    cases e <;> cases p <;> cases c <;> cases h <;> simp [construct, destruct]
  · cases e <;> cases p <;> cases c <;> simp [construct]

/-- A directory that can not be opened is noticed. -/
theorem C67_windows_unopenable_noticed_partial (a : OpenAnswers) (hp : a.path = false) (hc : a.completion = true) :
    (construct a).2 = false := by simp [construct, hp, hc]

example : destruct (construct ⟨true, true, true, true, true⟩).1 = [.event, .completion] := by decide

/-! ## C68 -/

/-- C68, the full claim: when the watch ends, the system holds no read into the watcher's memory. -/
def C68_full : Prop := ∀ (cs : List Completion) (w : Win), turns (start (.ok 0 [])) cs = some w → w.armed = false

/-- The full claim does not hold of the code, not even in the simplest history: the watch is opened and closed. -/
theorem C68_full_refuted : ¬ C68_full := fun h => absurd (h [] _ rfl) (by decide)

/-- In every history without errors the watch ends while the system holds a read into its memory (neither
`watch` nor the destructor cancels it). -/
theorem C68_read_always_outstanding (cs : List Completion) (hs : Smooth cs) (w : Win)
    (h : turns (start (.ok 0 [])) cs = some w) : w.armed = true := by
  obtain ⟨w', h1, h2, _⟩ := C66_windows_all_batches_partial cs hs
  rw [h1] at h; injection h with h; rw [← h]; exact h2

example : Smooth [.nothing, .done 20 [we [97]] [.ok 0 []]] := by
  refine ⟨by simp, ?_⟩
  intro n evs rs hm
  simp only [List.mem_cons, reduceCtorEq, Completion.done.injEq, List.mem_nil_iff, or_false, false_or] at hm
  obtain ⟨rfl, _, rfl⟩ := hm
  exact ⟨by omega, [], rfl⟩

end Verif.Props
