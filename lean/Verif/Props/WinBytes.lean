import Verif.Lemmas.WinBytes
import Verif.Props.Polled
/-!
# What a user is told during a whole watch on Windows: C126
-/

namespace Verif.Props.Poll
open Verif Verif.Model Verif.Model.Windows Verif.Model.Poll Verif.Spec.Windows Verif.Spec.Poll Verif.Spec.WinBytes Verif.Lemmas.Poll Verif.Lemmas.WinBytes

/-- C126: for every schedule of the watching thread and its owner, every history of batches, overflows and failures, and
whatever the file system answers: when the watch has ended well, the callback got the live message, then exactly what the
specification lists for what happened, then the die message. -/
theorem C126_windows_whole_life (base : WStr) (d : Bool) (acts : List (Act (winBytes base))) (s : St (winBytes base)) (h : run d {} acts = some s)
    (hw : s.w = .finished) (hl : Obs.cb (.die true) ∈ s.log) (hd : ∀ i ∈ answers acts, Documented i) :
    ∃ a q is hs o, answers acts = .opened true a :: .none :: is ∧ Takes a q ∧ Account is hs ∧ ToldFrom base q hs o ∧
      callbacks s.log = .live true :: o.map .ev ++ [.die true] := by
  have hi := inv_reached h
  have hs := hi.shape
  simp only [Shape, hw, Lemmas.Poll.place] at hs
  obtain ⟨r, _, ⟨_, hc, _⟩ | ⟨_, done, hc, ho⟩⟩ := hs
  · exact absurd (mem_callbacks hl) (by rw [hc]; simp)
  · have hm := mem_callbacks hl
    have hr : r = true := by
      rw [hc] at hm
      rcases List.mem_append.1 hm with hm | hm
      · rcases List.mem_cons.1 hm with hm | hm
        · cases hm
        · obtain ⟨e, _, he⟩ := List.mem_map.1 hm; cases he
      · have := List.mem_singleton.1 hm; injection this with this; exact this.symm
    subst hr
    have hne : ∃ i is, answers acts = i :: is := by
      cases ha : answers acts with
      | nil => rw [ha] at ho; rcases ho with ho | ⟨_, _, b, ho, _⟩ <;> simp [plays] at ho
      | cons i is => exact ⟨i, is, rfl⟩
    obtain ⟨i, is, ha⟩ := hne
    rw [ha] at ho hd
    have h1 := hd i (List.mem_cons_self ..)
    have h2 : ∀ j ∈ is, Documented j := fun j hj => hd j (List.mem_cons_of_mem _ hj)
    rcases ho with ho | ⟨_, hne, ⟨w, at'⟩, ho, hh⟩
    · have := at_plays base i is done _ ho h1 h2
      cases this
    · have hat : at' = .outer := by revert hh; cases at' <;> simp [winBytes]
      subst hat
      obtain ⟨a, q, is', hs, rfl, hq, rfl, hacc, ht, _⟩ := at_plays base i is done _ ho h1 h2
      exact ⟨a, q, is', hs, done, ha, hq, hacc, ht, hc⟩

/-- The records handed over in the course of a watch, in order, with what the file system then answered. -/
def records : List Happening → List (Rec × (WStr → Option Bool))
  | [] => []
  | .batch rs isDir _ :: hs => rs.map (fun r => (r, isDir)) ++ records hs
  | _ :: hs => records hs

private theorem plain_reports (isDir : WStr → Option Bool) (base : WStr) : ∀ rs : List Rec, (∀ r ∈ rs, Plain r) → ReportsAll isDir base rs (rs.map (plainEvent isDir base))
  | [], _ => .nil
  | r :: rs, h => .plain r rs _ (h r (List.mem_cons_self ..)) (plain_reports isDir base rs (fun x hx => h x (List.mem_cons_of_mem _ hx)))

private theorem plain_told (base : WStr) : ∀ (hs : List Happening) (o : List Said), Told base hs o →
    (∀ x ∈ hs, x = .quiet ∨ ∃ rs isDir, x = .batch rs isDir .queued ∧ (∀ r ∈ rs, Plain r) ∧ 16 ≤ (encode rs).length) →
    o = (records hs).map (fun x => .ev (plainEvent x.2 base x.1)) := by
  intro hs o h
  induction h with
  | nil => intro _; rfl
  | quiet hs o _ ih => intro hok; exact ih (fun x hx => hok x (List.mem_cons_of_mem _ hx))
  | batch rs isDir hs o o' hb _ ih =>
    intro hok
    rw [ih (fun x hx => hok x (List.mem_cons_of_mem _ hx))]
    rcases hok _ (List.mem_cons_self ..) with h | ⟨rs', isDir', h, hp, h16⟩
    · cases h
    · injection h with h1 h2 _
      subst h1; subst h2
      unfold BatchTold at hb
      rw [if_pos h16] at hb
      obtain ⟨evs, he, rfl⟩ := hb
      obtain ⟨u, _, hu⟩ := Props.C124_one_report isDir base rs
      rw [hu evs he, ← hu _ (plain_reports isDir base rs hp)]
      simp [records, Function.comp_def]
  | last rs isDir next hs o _ hn _ =>
    intro hok
    rcases hok _ (List.mem_cons_self ..) with h | ⟨rs', isDir', h, _, _⟩
    · cases h
    · injection h with _ _ h; exact absurd h hn
  | overflow hs _ => intro hok; rcases hok _ (List.mem_cons_self ..) with h | ⟨rs', isDir', h, _, _⟩ <;> cases h
  | failure hs _ => intro hok; rcases hok _ (List.mem_cons_self ..) with h | ⟨rs', isDir', h, _, _⟩ <;> cases h

/-- C126: the answers of the system have one history: the bytes of a batch determine its records. -/
theorem C126_one_history (is : List ByteAns) (hs hs' : List Happening) (h : Account is hs) (h' : Account is hs') : hs = hs' := account_unique h h'

/-- C126: a history is told in one way. -/
theorem C126_one_story (base : WStr) (q : Request) (hs : List Happening) (o o' : List Said) (h : ToldFrom base q hs o) (h' : ToldFrom base q hs o') : o = o' := by
  cases q with
  | queued => exact told_unique h h'
  | pending => exact h.2.trans h'.2.symm
  | refused => exact h.2.trans h'.2.symm

/-- C126: in particular, if changes are asked for all the time, no rename happens and no batch is a single notification
of a name of one character, every notification is told by its own event, once and in order, and nothing else is. -/
theorem C126_every_notification_told (base : WStr) (d : Bool) (acts : List (Act (winBytes base))) (s : St (winBytes base)) (h : run d {} acts = some s)
    (hw : s.w = .finished) (hl : Obs.cb (.die true) ∈ s.log) (hd : ∀ i ∈ answers acts, Documented i) (m : List UInt8) (is : List ByteAns) (hs : List Happening)
    (ha : answers acts = .opened true (.ok 0 m) :: .none :: is) (hacc : Account is hs)
    (hok : ∀ x ∈ hs, x = .quiet ∨ ∃ rs isDir, x = .batch rs isDir .queued ∧ (∀ r ∈ rs, Plain r) ∧ 16 ≤ (encode rs).length) :
    callbacks s.log = .live true :: (records hs).map (fun x => .ev (.ev (plainEvent x.2 base x.1))) ++ [.die true] := by
  obtain ⟨a, q, is', hs', o, ha', hq, hacc', ht, hc⟩ := C126_windows_whole_life base d acts s h hw hl hd
  rw [ha] at ha'
  injection ha' with h1 h2
  injection h1 with _ h1
  injection h2 with _ h2
  subst h1; subst h2
  cases hq
  have := account_unique hacc hacc'
  subst this
  have hm : ∀ l : List (Rec × (WStr → Option Bool)), (l.map (fun x => Said.ev (plainEvent x.2 base x.1))).map (Msg.ev : Said → Msg Said) =
      l.map (fun x => Msg.ev (.ev (plainEvent x.2 base x.1))) := by
    intro l; simp
  rw [hc, plain_told base hs o ht hok]
  exact congrArg (fun l => Msg.live true :: l ++ [Msg.die true]) (hm _)

/-- C126: after an overflow or a failed request the callback gets nothing more but the die message, however long the watch
goes on and whatever happens to the files. -/
theorem C126_deaf_after (base : WStr) (d : Bool) (acts : List (Act (winBytes base))) (s : St (winBytes base)) (h : run d {} acts = some s)
    (hw : s.w = .finished) (hl : Obs.cb (.die true) ∈ s.log) (hd : ∀ i ∈ answers acts, Documented i) (m : List UInt8) (is : List ByteAns) (hs hs' : List Happening)
    (x : Happening) (ha : answers acts = .opened true (.ok 0 m) :: .none :: is) (hacc : Account is (hs ++ x :: hs')) (hx : x = .overflow ∨ x = .failure) :
    ∃ o, Told base hs o ∧ callbacks s.log = .live true :: o.map .ev ++ [.die true] ∧ ∀ y ∈ hs', y = .quiet := by
  obtain ⟨a, q, is', hs'', o, ha', hq, hacc', ht, hc⟩ := C126_windows_whole_life base d acts s h hw hl hd
  rw [ha] at ha'
  injection ha' with h1 h2
  injection h1 with _ h1
  injection h2 with _ h2
  subst h1; subst h2
  cases hq
  have := account_unique hacc hacc'
  subst this
  obtain ⟨h1, h2⟩ := told_cut hx ht
  exact ⟨o, h1, hc, h2⟩

/-! ### A life -/

private def wrs : List Rec := [⟨1, [97, 98]⟩, ⟨4, [99]⟩, ⟨5, [100]⟩]
private def isFile : WStr → Option Bool := fun _ => some false
private def wB : WStr := [67]
private def wbUp : List (Act (winBytes wB)) := [.w, .w, .w, .cbReturn, .sys (.opened true (.ok 0 [])), .w, .w, .sys .none, .w]
private def wbTurn : List (Act (winBytes wB)) := [.w, .sys (.completion (some (46, encode wrs ++ [1, 2]))), .w, .w, .sys (.read isFile (.ok 0 [])), .w, .cbReturn, .w, .cbReturn, .w, .w, .sys .none, .w]
private def wbOver : List (Act (winBytes wB)) := [.w, .sys (.completion (some (0, []))), .w, .w, .sys .none, .w, .w, .sys (.completion none), .w]
private def wbEnd : List (Act (winBytes wB)) := [.oClose, .o, .o, .w, .w, .cbReturn, .w, .o]
private def wbLife : List (Act (winBytes wB)) := wbUp ++ wbTurn ++ wbOver ++ wbEnd

private theorem wrs_fit : ∀ r ∈ wrs, r.Fits := by
  intro r hr
  simp only [wrs, List.mem_cons, List.not_mem_nil, or_false] at hr
  rcases hr with rfl | rfl | rfl <;> constructor <;> decide
private theorem wb_answers : answers wbLife = [ByteAns.opened true (.ok 0 []), .none, .completion (some ((encode wrs).length, encode wrs ++ [1, 2])), .read isFile (.ok 0 []), .none,
    .completion (some (0, [])), .none, .completion none] := rfl

example : ∃ s, run true ({} : St (winBytes wB)) wbLife = some s ∧ s.w = .finished ∧
    callbacks s.log = [.live true, .ev (.ev ⟨[67, 92, 97, 98], .create, .file, none⟩), .ev (.ev ⟨[67, 92, 99], .rename, .file, some ([67, 92, 100], .file)⟩), .die true] :=
  ⟨_, rfl, rfl, rfl⟩
example : ∀ i ∈ answers wbLife, Documented i := by
  rw [wb_answers]
  show ∀ i : ByteAns, i ∈ _ → _
  intro i hi
  simp only [List.mem_cons, List.not_mem_nil, or_false] at hi
  rcases hi with rfl | rfl | rfl | rfl | rfl | rfl | rfl | rfl
  · rfl
  · trivial
  · exact .inr ⟨wrs, [1, 2], by decide, wrs_fit, rfl, rfl⟩
  · rfl
  · trivial
  · exact .inl rfl
  · trivial
  · trivial
example : Account ((answers wbLife).drop 2) [.batch wrs isFile .queued, .overflow, .quiet] := by
  rw [wb_answers]
  exact .batch wrs [1, 2] isFile (.ok 0 []) .queued _ _ (by decide) wrs_fit (.queued []) (.overflow [] _ _ (.quiet _ _ .nil))

end Verif.Props.Poll
