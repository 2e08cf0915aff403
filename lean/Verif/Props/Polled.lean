import Verif.Lemmas.PolledBack
import Verif.Props.Warthog
import Verif.Props.Windows
import Verif.Props.Lifecycle
/-!
# The life of a watcher on Windows and with the portable scanner: C87 - C94
-/
namespace Verif.Props.Poll
open Verif Verif.Model Verif.Model.Poll Verif.Spec.Poll Verif.Lemmas.Poll
open Verif.Spec.Warthog (CalmDir quietPasses)

/-! ### Examples to run -/

private def fileA : Warthog.Entry := ⟨b!"/d/a", true, some 1⟩
private def fileB : Warthog.Entry := ⟨b!"/d/b", true, some 2⟩
private def all : Str → Bool := fun _ => true
private def w1 : Warthog.World := ⟨.dir [.plain fileA] (some 0), all⟩
private def w2 : Warthog.World := ⟨.dir [.plain fileA, .plain fileB] (some 0), all⟩

private def scanUp : List (Act scanner) := [.w, .w, .w, .cbReturn, .sys w1, .w]
private def scanPass : List (Act scanner) := [.w, .sys w1, .w, .w, .sys w2, .w, .cbReturn, .w]
private def scanEnd : List (Act scanner) := [.w, .w, .cbReturn, .w]
private def closing : List (Act B) := [.oClose, .o, .o]
private def dtor : List (Act B) := [.oDtor, .o, .o, .o]
private def scanLife : List (Act scanner) := scanUp ++ scanPass ++ closing ++ scanEnd ++ [.o]

private def logOf {B : Backend} (acts : List (Act B)) : Option (List (Obs B.ε)) := (run true ({} : St B) acts).map St.log

private def createdB : Ev := ⟨b!"/d/b", .create, .file, none⟩

example : logOf scanLife = some [.cb (.live true), .cb (.ev createdB), .closeCall, .cb (.die true), .closeRet true] := rfl

private def we (n : UInt16) : Windows.WEv := ⟨[n], .create, .file, none⟩
private def winUp : List (Act windows) := [.w, .w, .w, .cbReturn, .sys (.opened true (.ok 0 [])), .w, .w, .sys .none, .w]
private def winTurn : List (Act windows) := [.w, .sys (.completion (some (20, [we 97]))), .w, .w, .sys (.read (.ok 0 [])), .w, .cbReturn, .w, .w, .sys .none, .w]
private def winLife : List (Act windows) := winUp ++ winTurn ++ closing ++ [.w, .w, .cbReturn, .w, .o]

example : logOf winLife = some [.cb (.live true), .cb (.ev (.ev (we 97))), .closeCall, .cb (.die true), .closeRet true] := rfl

/-! ## C87 -/

private theorem story {B : Backend} {d : Bool} {is : List B.ι} {s : St B} (h : Inv d is s) :
    (callbacks s.log = [] ∨ Begun (callbacks s.log) ∨ ∃ a b, Ended a b (callbacks s.log)) ∧
    (s.w = .finished → ∃ a b, Ended a b (callbacks s.log)) := by
  have hs := h.shape
  have fin : s.w = .finished → ∃ a b, Ended a b (callbacks s.log) := by
    intro hw
    simp only [Shape, hw, place] at hs
    obtain ⟨r, _, ⟨_, hc, _⟩ | ⟨_, done, hc, _⟩⟩ := hs
    · exact ⟨false, false, [], by simpa using hc⟩
    · exact ⟨true, r, done, hc⟩
  refine ⟨?_, fin⟩
  unfold Shape at hs
  cases hp : place s.w with
  | start => rw [hp] at hs; exact .inl hs.1
  | check => rw [hp] at hs; exact .inl hs.1
  | live pre => rw [hp] at hs; exact .inl hs.1
  | opening => rw [hp] at hs; exact .inr (.inl ⟨true, [], by simpa using hs.1⟩)
  | deliver es n => rw [hp] at hs; obtain ⟨done, hc, _⟩ := hs; exact .inr (.inl ⟨true, done, hc⟩)
  | head b => rw [hp] at hs; obtain ⟨done, hc, _⟩ := hs; exact .inr (.inl ⟨true, done, hc⟩)
  | turn b => rw [hp] at hs; obtain ⟨done, hc, _⟩ := hs; exact .inr (.inl ⟨true, done, hc⟩)
  | die pre post =>
    rw [hp] at hs
    obtain ⟨_, ⟨_, _, hc, _⟩ | ⟨_, _, done, hc, _⟩⟩ := hs
    · exact .inr (.inl ⟨false, [], by simpa using hc⟩)
    · exact .inr (.inl ⟨true, done, hc⟩)
  | setFut r =>
    rw [hp] at hs
    obtain ⟨_, ⟨_, hc, _⟩ | ⟨_, done, hc, _⟩⟩ := hs
    · exact .inr (.inr ⟨false, false, [], by simpa using hc⟩)
    · exact .inr (.inr ⟨true, r, done, hc⟩)
  | finished =>
    rw [hp] at hs
    obtain ⟨r, _, ⟨_, hc, _⟩ | ⟨_, done, hc, _⟩⟩ := hs
    · exact .inr (.inr ⟨false, false, [], by simpa using hc⟩)
    · exact .inr (.inr ⟨true, r, done, hc⟩)
  | inCb n => have := plain_place s.w; rw [hp] at this; cases this
  | selfClose c n => have := plain_place s.w; rw [hp] at this; cases this

/-- C87: in every reachable state the callback has seen nothing, or the live message and then only events of the back
end, or a whole story ending in the die message; and when the worker is done, a whole story. -/
theorem C87_live_first_die_last (B : Backend) (d : Bool) (s : St B) (h : Reachable B d s) :
    (callbacks s.log = [] ∨ Begun (callbacks s.log) ∨ ∃ a b, Ended a b (callbacks s.log)) ∧
    (s.w = .finished → ∃ a b, Ended a b (callbacks s.log)) := by
  obtain ⟨is, hi⟩ := inv_reachable h
  exact story hi

private theorem shown_story (path : Str) (r : Bool) (done : List Ev) :
    ((Msg.live true :: done.map Msg.ev ++ [Msg.die r]).map (shown path)) = Spec.liveMsg path true :: done ++ [Spec.dieMsg path r] := by
  have : ∀ l : List Ev, (l.map (Msg.ev : Ev → Msg Ev)).map (shown path) = l := by
    intro l; induction l with
    | nil => rfl
    | cons x l ih => simp only [List.map_cons, ih]; rfl
  simp only [List.cons_append, List.map_cons, List.map_append, List.map_nil, this]
  rfl

/-- C87, the scanner: as events, too, the live and die messages can not be taken for anything else: when the worker is
done, the callback has got the live message, events that are not about the watcher itself, and the die message. -/
theorem C87_scanner_messages (d : Bool) (path : Str) (s : St scanner) (h : Reachable scanner d s) (hw : s.w = .finished) :
    ∃ a b, Spec.Ended path a b ((callbacks s.log).map (shown path)) := by
  obtain ⟨is, hi⟩ := inv_reachable h
  have hs := hi.shape
  simp only [Shape, hw, place] at hs
  obtain ⟨r, _, ⟨_, hc, _⟩ | ⟨_, done, hc, ho⟩⟩ := hs
  · rw [hc]; exact ⟨false, false, [], rfl, by simp⟩
  · rw [hc]
    refine ⟨true, r, done, shown_story path r done, ?_⟩
    have hp : ∃ x, plays scanner is = some (done, x) := by
      rcases ho with ho | ⟨_, _, b, ho, _⟩
      · exact ⟨_, ho⟩
      · exact ⟨_, ho⟩
    obtain ⟨x, hp⟩ := hp
    intro m hm
    left
    cases is with
    | nil => simp [plays] at hp
    | cons i is => exact scanner_types i is done x hp m hm

/-- C87, Windows: the events of a batch are never about the watcher itself, whatever the buffer holds. -/
theorem C87_windows_batches (isDir : Windows.WStr → Option Bool) (base : Windows.WStr) (m : List UInt8) (ready fuel : Nat) (evs : List Windows.WEv)
    (h : Windows.sendBatch isDir base m ready fuel = some (.ok evs)) : ∀ e ∈ evs, e.ptype ≠ .watcher := by
  have hpt : ∀ p, Windows.ptypeOf isDir p ≠ .watcher := by intro p; unfold Windows.ptypeOf; split <;> simp
  have main : ∀ (fuel off : Nat) (t : Windows.Trackers) (out : List Windows.WEv), (∀ e ∈ out, e.ptype ≠ .watcher) →
      (∀ p q, t.old = some (p, q) → q ≠ .watcher) → (∀ p q, t.new = some (p, q) → q ≠ .watcher) →
      Windows.sendLoop isDir base m ready fuel off t out = some (.ok evs) → ∀ e ∈ evs, e.ptype ≠ .watcher := by
    intro fuel
    induction fuel with
    | zero => intro off t out _ _ _ h; simp [Windows.sendLoop] at h
    | succ fuel ih =>
      intro off t out h1 h2 h3 h
      simp only [Windows.sendLoop] at h
      split at h
      · split at h
        · rename_i next action len _ _ _
          split at h
          · split at h
            · simp at h
            · rename_i name _
              have hrec : (∀ e ∈ (Windows.onRecord isDir base t action name).2, e.ptype ≠ .watcher) ∧
                  (∀ p q, (Windows.onRecord isDir base t action name).1.old = some (p, q) → q ≠ .watcher) ∧
                  (∀ p q, (Windows.onRecord isDir base t action name).1.new = some (p, q) → q ≠ .watcher) := by
                unfold Windows.onRecord
                simp only
                split
                · split
                  · refine ⟨?_, by simp, by simp⟩
                    intro e he; simp at he; rw [he]; exact hpt _
                  · refine ⟨by simp, ?_, h3⟩
                    intro p q he; simp at he; rw [← he.2]; exact hpt _
                · split
                  · split
                    · rename_i p q hq
                      refine ⟨?_, by simp, by simp⟩
                      intro e he; simp at he; rw [he]; exact h2 _ _ hq
                    · refine ⟨by simp, h2, ?_⟩
                      intro p q he; simp at he; rw [← he.2]; exact hpt _
                  · refine ⟨?_, h2, h3⟩
                    intro e he; simp at he; rw [he]; exact hpt _
              have hout : ∀ e ∈ out ++ (Windows.onRecord isDir base t action name).2, e.ptype ≠ .watcher := by
                intro e he
                rcases List.mem_append.1 he with he | he
                · exact h1 e he
                · exact hrec.1 e he
              split at h
              · simp at h; rw [← h]; exact hout
              · exact ih _ _ _ hout hrec.2.1 hrec.2.2 h
          · exact ih _ _ _ h1 h2 h3 h
        · simp at h
      · simp at h; rw [← h]; exact h1
  exact main fuel 0 {} [] (by simp) (by simp) (by simp) h

/-- C87, Windows: when the worker is done, what lies between the live and the die message looks like neither: it is
an event of a file, or one of the two messages about reading, whose effect is other. -/
theorem C87_windows_messages (d : Bool) (acts : List (Act windows)) (s : St windows) (h : run d {} acts = some s)
    (hf : ∀ i ∈ answers acts, FileEvents i) (hw : s.w = .finished) :
    ∃ a b mids, callbacks s.log = .live a :: mids ++ [.die b] ∧ ∀ m ∈ mids, (looks m).2 ≠ .watcher ∨ (looks m).1 = .other := by
  have hi := inv_reached h
  have hs := hi.shape
  simp only [Shape, hw, place] at hs
  obtain ⟨r, _, ⟨_, hc, _⟩ | ⟨_, done, hc, ho⟩⟩ := hs
  · exact ⟨false, false, [], hc, by simp⟩
  · refine ⟨true, r, done.map .ev, hc, ?_⟩
    have hp : ∃ x, plays windows (answers acts) = some (done, x) := by
      rcases ho with ho | ⟨_, _, b, ho, _⟩
      · exact ⟨_, ho⟩
      · exact ⟨_, ho⟩
    obtain ⟨x, hp⟩ := hp
    cases ha : answers acts with
    | nil => rw [ha] at hp; simp [plays] at hp
    | cons i is =>
      rw [ha] at hp hf
      have := windows_types i is done x (hf i (List.mem_cons_self ..)) (fun j hj => hf j (List.mem_cons_of_mem _ hj)) hp
      intro m hm
      obtain ⟨e, he, rfl⟩ := List.mem_map.1 hm
      cases e with
      | ev e => exact .inl (this e he)
      | readPending => exact .inr rfl
      | readFailed => exact .inr rfl

private def fileB? : WinAns → Bool
  | .opened _ (.ok _ evs) => evs.all (fun e => e.ptype != .watcher)
  | .completion (some (_, evs)) => evs.all (fun e => e.ptype != .watcher)
  | .read (.ok _ evs) => evs.all (fun e => e.ptype != .watcher)
  | _ => true

private theorem allFile (l : List WinAns) (h : l.all fileB? = true) : ∀ i ∈ l, FileEvents i := by
  intro i hi
  have := List.all_eq_true.1 h i hi
  cases i with
  | opened v a => cases a <;> simp_all [fileB?, FileEvents]
  | none => trivial
  | failed => trivial
  | completion c => cases c <;> simp_all [fileB?, FileEvents]
  | read a => cases a <;> simp_all [fileB?, FileEvents]

example : ∃ s, run true ({} : St windows) winLife = some s ∧ (∀ i ∈ answers winLife, FileEvents i) ∧ s.w = .finished :=
  ⟨_, rfl, by
    have : answers winLife = [WinAns.opened true (.ok 0 []), .none, .completion (some (20, [we 97])), .read (.ok 0 []), .none] := rfl
    rw [this]
    exact allFile _ (by decide), rfl⟩
example : ∃ s, Reachable scanner true s ∧ s.w = .finished := ⟨_, ⟨scanLife, rfl⟩, rfl⟩

/-! ## C88 -/

/-- C88: when a first `close()` has returned, the story is complete, `close()` returned true exactly if the die message
says `s`, and that requires the live message to say `s`. -/
theorem C88_close_agrees_with_die (B : Backend) (d : Bool) (s : St B) (h : Reachable B d s) (hc : ∃ b, Obs.closeRet b ∈ s.log) :
    ∃ a r, Ended a r (callbacks s.log) ∧ (Obs.closeRet true ∈ s.log → r = true) ∧ (r = true → a = true) := by
  obtain ⟨is, hi⟩ := inv_reachable h
  obtain ⟨b, hb⟩ := hc
  have hw := hi.valid (hi.ret b hb)
  have hs := hi.shape
  simp only [Shape, hw, place] at hs
  obtain ⟨r, hf, ⟨rfl, hc, _⟩ | ⟨_, done, hc, ho⟩⟩ := hs
  · refine ⟨false, false, ⟨[], by simpa using hc⟩, ?_, by simp⟩
    intro hy; have := hi.yes hy; rw [hf] at this; cases this
  · refine ⟨true, r, ⟨done, hc⟩, ?_, fun _ => rfl⟩
    intro hy; have := hi.yes hy; rw [hf] at this; injection this

/-- The first answer of `close()`. -/
private def firstRet {ε : Type} : List (Obs ε) → Option Bool
  | [] => none
  | .closeRet b :: _ => some b
  | _ :: l => firstRet l

private theorem firstRet_append {ε : Type} (l : List (Obs ε)) (x : Obs ε) : firstRet (l ++ [x]) = (firstRet l).or (firstRet [x]) := by
  induction l with
  | nil => simp [firstRet]
  | cons y l ih => cases y <;> simp [firstRet, ih]

private theorem firstRet_none {ε : Type} (l : List (Obs ε)) (h : ∀ b, Obs.closeRet b ∉ l) : firstRet l = none := by
  induction l with
  | nil => rfl
  | cons y l ih =>
    cases y with
    | closeRet b => exact absurd (List.mem_cons_self ..) (h b)
    | _ => exact ih (fun b hb => h b (List.mem_cons_of_mem _ hb))

private theorem firstRet_mem {ε : Type} {l : List (Obs ε)} {b : Bool} (h : Obs.closeRet b ∈ l) : (firstRet l).isSome = true := by
  induction l with
  | nil => cases h
  | cons y l ih =>
    cases y with
    | closeRet c => rfl
    | _ => exact ih (by simpa using h)

/-- C88: and the first `close()` returns exactly what the die message says. -/
theorem C88_first_close_is_the_result (B : Backend) (d : Bool) (s : St B) (h : Reachable B d s) (b : Bool) (l1 l2 : List (Obs B.ε))
    (hl : s.log = l1 ++ .closeRet b :: l2) (h1 : ∀ c, Obs.closeRet c ∉ l1) : ∃ a, Ended a b (callbacks s.log) := by
  -- whatever has been fetched was fetched by the first `close()` that returned, or by the destructor
  have key : ∀ s : St B, Reachable B d s → ((∃ c, Obs.closeRet c ∈ s.log) → firstRet s.log = s.fut) ∧
      (s.valid = false → (∃ c, Obs.closeRet c ∈ s.log) ∨ s.o = .dtorFuture ∨ s.o = .gone) := by
    rintro s ⟨acts, h⟩
    have := run_keeps (d := d) (P := fun x : St B => (∃ is, Inv d is x) ∧ ((∃ c, Obs.closeRet c ∈ x.log) → firstRet x.log = x.fut) ∧
      (x.valid = false → (∃ c, Obs.closeRet c ∈ x.log) ∨ x.o = .dtorFuture ∨ x.o = .gone)) ?_ acts {} s ⟨⟨_, inv_init⟩, by simp, by simp⟩ h
    · exact this.2
    rintro x a x' ⟨⟨is, hi⟩, k1, k2⟩ hs
    refine ⟨⟨_, inv_step hi hs⟩, ?_⟩
    by_cases ha : isWorker a = true
    · -- the worker
      by_cases hw : x.w = .finished
      · rw [finished_step hw ha] at hs; cases hs
      · have hv := valid_true hi hw
        have hi' := inv_step hi hs
        have hnr : ∀ c, Obs.closeRet c ∉ x.log := fun c hc => by rw [hi.ret c hc] at hv; cases hv
        have hv' : x'.valid = true ∧ ∀ c, Obs.closeRet c ∉ x'.log := by
          cases a with
          | w =>
            simp only [step, wStep] at hs
            cases hww : x.w with
            | deliver es n =>
              rw [hww] at hs
              cases es with
              | cons e es => injection hs with hs; subst hs; exact ⟨hv, by simpa [callCb] using hnr⟩
              | nil => cases n <;> (injection hs with hs; subst hs; exact ⟨hv, hnr⟩)
            | head b =>
              rw [hww] at hs
              simp only at hs
              split at hs <;> (injection hs with hs; subst hs; exact ⟨hv, hnr⟩)
            | selfClose c n =>
              rw [hww] at hs
              have hfn := fut_none hi hw
              cases c with
              | store => injection hs with hs; subst hs; exact ⟨hv, hnr⟩
              | valid =>
                simp only [show closeStep x .valid = some (x, .inl .get) from by simp [closeStep, hv]] at hs
                injection hs with hs; subst hs; exact ⟨hv, hnr⟩
              | get => simp [closeStep, hfn] at hs
            | start => rw [hww] at hs; injection hs with hs; subst hs; exact ⟨hv, hnr⟩
            | check => rw [hww] at hs; injection hs with hs; subst hs; exact ⟨hv, hnr⟩
            | live pre => rw [hww] at hs; injection hs with hs; subst hs; exact ⟨hv, by simpa [callCb] using hnr⟩
            | die a b => rw [hww] at hs; injection hs with hs; subst hs; exact ⟨hv, by simpa [callCb] using hnr⟩
            | setFut r => rw [hww] at hs; injection hs with hs; subst hs; exact ⟨hv, hnr⟩
            | opening => rw [hww] at hs; cases hs
            | turn b => rw [hww] at hs; cases hs
            | finished => rw [hww] at hs; cases hs
            | inCb n => rw [hww] at hs; cases hs
          | sys i =>
            simp only [step] at hs
            split at hs
            · cases hq : B.start i with
              | none => simp [hq] at hs
              | some q => rw [hq] at hs; injection hs with hs; subst hs; exact ⟨hv, hnr⟩
            · rename_i b _
              cases hq : B.turn b i with
              | none => simp [hq] at hs
              | some q => rw [hq] at hs; injection hs with hs; subst hs; exact ⟨hv, hnr⟩
            · cases hs
          | cbReturn => simp only [step] at hs; split at hs; injection hs with hs; subst hs; exact ⟨hv, hnr⟩; cases hs
          | cbClose => simp only [step] at hs; split at hs; injection hs with hs; subst hs; exact ⟨hv, hnr⟩; cases hs
          | o => simp [isWorker] at ha
          | oClose => simp [isWorker] at ha
          | oDtor => simp [isWorker] at ha
        refine ⟨?_, by simp [hv'.1]⟩
        rintro ⟨c, hc⟩; exact absurd hc (hv'.2 c)
    · -- the owner
      have quiet : ∀ (y : Obs B.ε), (∀ c, y ≠ .closeRet c) → x'.log = x.log ++ [y] → x'.fut = x.fut → x'.valid = x.valid →
          (x.o = .dtorFuture ∨ x.o = .gone → x'.o = .dtorFuture ∨ x'.o = .gone) →
          ((∃ c, Obs.closeRet c ∈ x'.log) → firstRet x'.log = x'.fut) ∧ (x'.valid = false → (∃ c, Obs.closeRet c ∈ x'.log) ∨ x'.o = .dtorFuture ∨ x'.o = .gone) := by
        intro y hy hl hf hv ho
        have hm : ∀ c, Obs.closeRet c ∈ x'.log ↔ Obs.closeRet c ∈ x.log := by
          intro c; rw [hl]; simp; intro e; exact absurd e.symm (hy c)
        have hn : firstRet [y] = none := firstRet_none _ (fun c hc => hy c (List.mem_singleton.1 hc).symm)
        refine ⟨?_, ?_⟩
        · rintro ⟨c, hc⟩
          rw [hl, firstRet_append, hn, hf, k1 ⟨c, (hm c).1 hc⟩]; simp
        · intro h0
          rcases k2 (hv ▸ h0) with ⟨c, hc⟩ | h0
          · exact .inl ⟨c, (hm c).2 hc⟩
          · exact .inr (ho h0)
      have still : x'.log = x.log → x'.fut = x.fut → x'.valid = x.valid → (x.o = .dtorFuture ∨ x.o = .gone → x'.o = .dtorFuture ∨ x'.o = .gone) →
          ((∃ c, Obs.closeRet c ∈ x'.log) → firstRet x'.log = x'.fut) ∧ (x'.valid = false → (∃ c, Obs.closeRet c ∈ x'.log) ∨ x'.o = .dtorFuture ∨ x'.o = .gone) := by
        intro hl hf hv ho
        rw [hl, hf, hv]
        exact ⟨k1, fun h0 => (k2 h0).imp id ho⟩
      cases a with
      | oClose =>
        simp only [step] at hs
        split at hs
        · rename_i ho; injection hs with hs; subst hs
          exact quiet .closeCall (by simp) rfl rfl rfl (by simp [ho])
        · cases hs
      | oDtor =>
        simp only [step] at hs
        split at hs
        · rename_i ho; injection hs with hs; subst hs
          exact quiet .dtorCall (by simp) rfl rfl rfl (by simp [ho])
        · cases hs
      | o =>
        simp only [step, oStep] at hs
        cases ho : x.o with
        | idle => rw [ho] at hs; cases hs
        | gone => rw [ho] at hs; cases hs
        | closing c =>
          rw [ho] at hs
          cases c with
          | store => injection hs with hs; subst hs; exact still rfl rfl rfl (by simp [ho])
          | valid =>
            cases hv : x.valid with
            | true =>
              simp only [show closeStep x .valid = some (x, .inl .get) from by simp [closeStep, hv]] at hs
              injection hs with hs; subst hs; exact still rfl rfl rfl (by simp [ho])
            | false =>
              simp only [show closeStep x .valid = some (x, .inr false) from by simp [closeStep, hv]] at hs
              injection hs with hs; subst hs
              refine ⟨?_, fun _ => .inl ⟨false, by simp⟩⟩
              intro _
              rcases k2 hv with ⟨c, hc⟩ | h0 | h0
              · have hsome := firstRet_mem hc
                have := k1 ⟨c, hc⟩
                simp only [firstRet_append]
                rw [← this]
                cases hx : firstRet x.log with
                | none => simp [hx] at hsome
                | some v => simp
              · rw [ho] at h0; cases h0
              · rw [ho] at h0; cases h0
          | get =>
            have hv := hi.get (.inl ho)
            have hnr : ∀ c, Obs.closeRet c ∉ x.log := fun c hc => by rw [hi.ret c hc] at hv; cases hv
            cases hf : x.fut with
            | none => simp [closeStep, hf] at hs
            | some b =>
              simp only [closeStep, hf] at hs
              injection hs with hs; subst hs
              refine ⟨?_, fun _ => .inl ⟨b, by simp⟩⟩
              intro _
              simp [firstRet_append, firstRet_none _ hnr, firstRet]
        | dtorClosing c =>
          rw [ho] at hs
          cases c with
          | store => injection hs with hs; subst hs; exact still rfl rfl rfl (by simp [ho])
          | valid =>
            cases hv : x.valid with
            | true =>
              simp only [show closeStep x .valid = some (x, .inl .get) from by simp [closeStep, hv]] at hs
              injection hs with hs; subst hs; exact still rfl rfl rfl (by simp [ho])
            | false =>
              simp only [show closeStep x .valid = some (x, .inr false) from by simp [closeStep, hv]] at hs
              injection hs with hs; subst hs; exact still rfl rfl rfl (by simp)
          | get =>
            have hv := hi.get (.inr ho)
            have hnr : ∀ c, Obs.closeRet c ∉ x.log := fun c hc => by rw [hi.ret c hc] at hv; cases hv
            cases hf : x.fut with
            | none => simp [closeStep, hf] at hs
            | some b =>
              simp only [closeStep, hf] at hs
              injection hs with hs; subst hs
              exact ⟨fun ⟨c, hc⟩ => absurd hc (hnr c), fun _ => .inr (.inl rfl)⟩
        | dtorFuture =>
          rw [ho] at hs
          simp only at hs
          split at hs
          · split at hs
            · cases hs
            · injection hs with hs; subst hs; exact quiet .dtorRet (by simp) rfl rfl rfl (by simp)
          · injection hs with hs; subst hs; exact quiet .dtorRet (by simp) rfl rfl rfl (by simp)
      | _ => simp [isWorker] at ha
  obtain ⟨is, hi⟩ := inv_reachable h
  have hmem : Obs.closeRet b ∈ s.log := by rw [hl]; simp
  have hfirst : firstRet s.log = some b := by
    rw [hl]
    have : ∀ l1 : List (Obs B.ε), (∀ c, Obs.closeRet c ∉ l1) → firstRet (l1 ++ .closeRet b :: l2) = some b := by
      intro l1
      induction l1 with
      | nil => intro _; rfl
      | cons y l ih =>
        intro hn
        have hl' := ih (fun c hc => hn c (List.mem_cons_of_mem _ hc))
        cases y with
        | closeRet c => exact absurd (List.mem_cons_self ..) (hn c)
        | _ => simpa [firstRet] using hl'
    exact this l1 h1
  have hfut := (key s h).1 ⟨b, hmem⟩
  rw [hfirst] at hfut
  have hw := hi.valid (hi.ret b hmem)
  have hs := hi.shape
  simp only [Shape, hw, place] at hs
  obtain ⟨r, hf, ⟨rfl, hc, _⟩ | ⟨_, done, hc, ho⟩⟩ := hs
  · rw [hf] at hfut; injection hfut with hfut; subst hfut; exact ⟨false, [], by simpa using hc⟩
  · rw [hf] at hfut; injection hfut with hfut; subst hfut; exact ⟨true, done, hc⟩

/-- C88: at most one `close()` ever returns true. -/
theorem C88_at_most_one_success (B : Backend) (d : Bool) (s : St B) (h : Reachable B d s) :
    s.log.countP (fun o => match o with | .closeRet true => true | _ => false) ≤ 1 := by
  obtain ⟨is, hi⟩ := inv_reachable h
  have := hi.once
  have e : (fun o : Obs B.ε => match o with | .closeRet true => true | _ => false) = isYes := by
    funext o; cases o <;> try rfl
    rename_i b; cases b <;> rfl
  rw [e]; exact this

/-- C88: after any `close()` has returned, every later one returns false. -/
theorem C88_later_closes_fail (B : Backend) (d : Bool) (s s' : St B) (acts : List (Act B)) (h : Reachable B d s)
    (hc : ∃ b, Obs.closeRet b ∈ s.log) (hr : run d s acts = some s') : ∃ new, s'.log = s.log ++ new ∧ Obs.closeRet true ∉ new := by
  obtain ⟨new, hn⟩ := run_log hr
  refine ⟨new, hn, ?_⟩
  intro hx
  obtain ⟨c, hc⟩ := hc
  obtain ⟨is, hi⟩ := inv_reachable h
  obtain ⟨is', hi'⟩ := inv_reachable (reachable_run h hr)
  have hw := hi.valid (hi.ret c hc)
  have hfut := (finished_run hw hr).2.2
  have ht := hi'.yes (by rw [hn]; simp [hx])
  -- the first answer was the result, so it was true too
  have hfirst : ∃ b l1 l2, s.log = l1 ++ .closeRet b :: l2 ∧ ∀ c, Obs.closeRet c ∉ l1 := by
    have : ∀ l : List (Obs B.ε), (∃ c, Obs.closeRet c ∈ l) → ∃ b l1 l2, l = l1 ++ .closeRet b :: l2 ∧ ∀ c, Obs.closeRet c ∉ l1 := by
      intro l
      induction l with
      | nil => rintro ⟨c, hc⟩; cases hc
      | cons y l ih =>
        rintro ⟨c, hc⟩
        cases y with
        | closeRet b => exact ⟨b, [], l, rfl, by simp⟩
        | _ =>
          obtain ⟨b, l1, l2, e, hn⟩ := ih ⟨c, by simpa using hc⟩
          refine ⟨b, _ :: l1, l2, by rw [e]; rfl, ?_⟩
          intro c hc'
          rcases List.mem_cons.1 hc' with h | h
          · cases h
          · exact hn c h
    exact this _ ⟨c, hc⟩
  obtain ⟨b, l1, l2, hl, hl1⟩ := hfirst
  obtain ⟨a, m1, hm1⟩ := C88_first_close_is_the_result B d s h b l1 l2 hl hl1
  have hs := hi.shape
  simp only [Shape, hw, place] at hs
  rw [← hfut, ht] at hs
  have hb : b = true := by
    obtain ⟨r, hf, h2⟩ := hs
    injection hf with hf
    subst hf
    rcases h2 with ⟨hr, _⟩ | ⟨_, done, hd, _⟩
    · cases hr
    · rw [hm1] at hd
      have := (List.append_inj' hd rfl).2
      injection this with this
      injection this
  subst hb
  have hcount := hi'.once
  rw [hn, List.countP_append] at hcount
  have p1 : 0 < s.log.countP isYes := List.countP_pos_iff.2 ⟨.closeRet true, by rw [hl]; simp, rfl⟩
  have p2 : 0 < new.countP isYes := List.countP_pos_iff.2 ⟨_, hx, rfl⟩
  omega

example : logOf (scanLife ++ [.oClose, .o, .o]) = some [.cb (.live true), .cb (.ev createdB), .closeCall, .cb (.die true), .closeRet true, .closeCall, .closeRet false] := rfl

/-! ## C89 -/

/-- C89: after `close()` has returned, no schedule delivers another event. -/
theorem C89_silence_after_close (B : Backend) (d : Bool) (s s' : St B) (acts : List (Act B)) (h : Reachable B d s)
    (hc : ∃ b, Obs.closeRet b ∈ s.log) (hr : run d s acts = some s') : callbacks s'.log = callbacks s.log := by
  obtain ⟨is, hi⟩ := inv_reachable h
  obtain ⟨b, hb⟩ := hc
  exact (finished_run (hi.valid (hi.ret b hb)) hr).2.1

/-- C89: after the destructor has returned, no schedule delivers another event. -/
theorem C89_silence_after_destructor (B : Backend) (d : Bool) (s s' : St B) (acts : List (Act B)) (h : Reachable B d s)
    (hd : Obs.dtorRet ∈ s.log) (hr : run d s acts = some s') : callbacks s'.log = callbacks s.log := by
  obtain ⟨is, hi⟩ := inv_reachable h
  exact (finished_run (hi.gone (hi.dret.1 hd)) hr).2.1

/-- C89: once the object is gone, the worker makes no step at all, so it never touches the stop flag, the path or the
callback, which were in the object or in its thread. -/
theorem C89_no_worker_step_after (B : Backend) (d : Bool) (s s' : St B) (acts : List (Act B)) (a : Act B) (h : Reachable B d s)
    (hd : Obs.dtorRet ∈ s.log) (hr : run d s acts = some s') (ha : isWorker a = true) : step d s' a = none := by
  obtain ⟨is, hi⟩ := inv_reachable h
  exact finished_step (finished_run (hi.gone (hi.dret.1 hd)) hr).1 ha

/-- C89: the destructor returns only after the whole story was told. -/
theorem C89_destructor_waits (B : Backend) (d : Bool) (s : St B) (h : Reachable B d s) (hd : Obs.dtorRet ∈ s.log) :
    ∃ a b, Ended a b (callbacks s.log) := by
  obtain ⟨is, hi⟩ := inv_reachable h
  exact (story hi).2 (hi.gone (hi.dret.1 hd))

example : ∃ s, Reachable scanner true s ∧ Obs.dtorRet ∈ s.log := ⟨_, ⟨scanLife ++ dtor, rfl⟩, by simp⟩
example : logOf (B := scanner) (scanUp ++ [.oDtor, .o, .o] ++ [.w, .w, .cbReturn, .w] ++ [.o, .o]) =
    some [.cb (.live true), .dtorCall, .cb (.die true), .dtorRet] := rfl

/-! ## C90 -/

/-- C90: once the stop flag is set, whatever the file system looks like, the scanner's worker makes at most thirteen
more steps and two for each event it still delivers (callbacks that return). -/
theorem C90_scanner_close_terminates (d : Bool) (s s' : St scanner) (acts : List (Act scanner)) (h : Reachable scanner d s) (hrel : Released s)
    (hns : ∀ c n, s.w ≠ .selfClose c n) (hc : Act.cbClose ∉ acts) (hr : run d s acts = some s') :
    ∃ new, callbacks s'.log = callbacks s.log ++ new ∧ (acts.filter isWorker).length ≤ 13 + 2 * new.length := by
  obtain ⟨is, hi⟩ := inv_reachable h
  obtain ⟨new, hn⟩ := run_log hr
  have hcb : callbacks s'.log = callbacks s.log ++ callbacks new := by rw [hn, callbacks_append]
  refine ⟨callbacks new, hcb, ?_⟩
  have hg : GoodAt (B := scanner) (fun _ => True) s.w := by unfold GoodAt; split <;> trivial
  have hrel' : s.is ≠ .pending := by rw [show s.is = .released from hrel]; simp
  have := phi_run scanner_prompt acts s s' hrel' hg (fun a ha => by cases a <;> simp_all [CalmAct]) hr
  rw [hcb, List.length_append] at this
  have flat : ∀ w : WPc scanner, plain w = true → phi scanRank 1 w ≤ 12 := by
    intro w hw
    cases w with
    | inCb n => simp [plain] at hw
    | selfClose c n => simp [plain] at hw
    | head b =>
      have : scanRank b ≤ 1 := by unfold scanRank; split <;> simp
      simp only [phi]; split <;> omega
    | turn b =>
      have : scanRank b ≤ 1 := by unfold scanRank; split <;> simp
      simp only [phi]; omega
    | deliver es n =>
      cases n with
      | inl b =>
        have : scanRank b ≤ 1 := by unfold scanRank; split <;> simp
        simp only [phi, phiNext]; split <;> omega
      | inr r => simp [phi, phiNext]
    | _ => simp [phi]
  have hb : phi scanRank 1 s.w ≤ 13 := by
    cases hw : s.w with
    | inCb n => have := flat n (hi.nest1 n hw); simp only [phi]; omega
    | selfClose c n => exact absurd hw (hns c n)
    | _ => refine Nat.le_succ_of_le (flat _ ?_); simp [plain]
  omega

/-- C90: and it is never stuck: from every state after the flag was set there is a schedule of the worker alone that
ends, and there every waiting `close()` or destructor goes on. -/
theorem C90_scanner_close_returns (d : Bool) (s : St scanner) (h : Reachable scanner d s) (hrel : Released s) (hns : ∀ c n, s.w ≠ .selfClose c n) :
    ∃ acts s', (∀ a ∈ acts, a ≠ .cbClose ∧ isWorker a = true) ∧ run d s acts = some s' ∧ s'.w = .finished ∧
      (s'.o ≠ .idle → s'.o ≠ .gone → (oStep s').isSome = true) := by
  obtain ⟨is, hi⟩ := inv_reachable h
  have hg : GoodAt (B := scanner) (fun _ => True) s.w := by unfold GoodAt; split <;> trivial
  have hrel' : s.is ≠ .pending := by rw [show s.is = .released from hrel]; simp
  obtain ⟨acts, s', h1, h2, h3⟩ := reach_end scanner_prompt scanner_start (fun b => scanner_turn b) _ s is (Nat.le_refl _) hi hrel' hg hns
  refine ⟨acts, s', ?_, h2, h3, owner_goes_on (inv_run hi h2) h3⟩
  intro a ha
  refine ⟨?_, (h1 a ha).2⟩
  rintro rfl
  exact (h1 _ ha).1

/-- C90: the flag is set by the first step of `close()` and of the destructor, and it stays set. -/
theorem C90_flag (B : Backend) (d : Bool) (s s' : St B) (acts : List (Act B)) (h : Reachable B d s)
    (hc : Released s ∨ s.o = .closing .valid ∨ s.o = .closing .get ∨ s.o = .dtorClosing .valid ∨ s.o = .dtorClosing .get ∨ s.o = .dtorFuture ∨ s.o = .gone)
    (hr : run d s acts = some s') : Released s' := by
  obtain ⟨is, hi⟩ := inv_reachable h
  have h0 : s.is = .released := by
    rcases hc with h | h | h | h | h | h | h
    · exact h
    · exact hi.rel (.inl h)
    · exact hi.rel (.inr (.inr (.inl h)))
    · exact hi.rel (.inr (.inl h))
    · exact hi.rel (.inr (.inr (.inr (.inl h))))
    · exact hi.rel (.inr (.inr (.inr (.inr (.inl h)))))
    · exact hi.rel (.inr (.inr (.inr (.inr (.inr h)))))
  have := run_keeps (P := fun x : St B => (∃ is, Inv d is x) ∧ x.is ≠ .pending) ?_ acts s s' ⟨⟨_, hi⟩, by rw [h0]; simp⟩ hr
  · obtain ⟨⟨is', hi'⟩, hne⟩ := this
    exact hi'.sig.resolve_left hne
  · rintro x a x' ⟨⟨is, hx⟩, hp⟩ hs
    refine ⟨⟨_, inv_step hx hs⟩, ?_⟩
    cases ha : isWorker a with
    | false => exact (owner_step ha hs).2.2.2 hp
    | true =>
      by_cases hsc : a = .w
      · subst hsc
        simp only [step, wStep] at hs
        cases hww : x.w with
        | deliver es n =>
          rw [hww] at hs
          cases es with
          | cons e es => injection hs with hs; subst hs; exact hp
          | nil => cases n <;> (injection hs with hs; subst hs; exact hp)
        | head b =>
          rw [hww] at hs
          simp only at hs
          split at hs <;> (injection hs with hs; subst hs; exact hp)
        | selfClose c n =>
          rw [hww] at hs
          cases hcs : closeStep x c with
          | none => simp [hcs] at hs
          | some p =>
            obtain ⟨s1, r⟩ := p
            have := (closeStep_eq hcs).2.2.2.2 hp
            cases r <;> (simp only [hcs] at hs; injection hs with hs; subst hs; exact this)
        | start => rw [hww] at hs; injection hs with hs; subst hs; exact hp
        | check => rw [hww] at hs; injection hs with hs; subst hs; exact hp
        | live pre => rw [hww] at hs; injection hs with hs; subst hs; exact hp
        | die a b => rw [hww] at hs; injection hs with hs; subst hs; exact hp
        | setFut r => rw [hww] at hs; injection hs with hs; subst hs; exact hp
        | opening => rw [hww] at hs; cases hs
        | turn b => rw [hww] at hs; cases hs
        | finished => rw [hww] at hs; cases hs
        | inCb n => rw [hww] at hs; cases hs
      · cases a with
        | w => exact absurd rfl hsc
        | sys i =>
          simp only [step] at hs
          split at hs
          · cases hq : B.start i with
            | none => simp [hq] at hs
            | some q => rw [hq] at hs; injection hs with hs; subst hs; exact hp
          · rename_i b _
            cases hq : B.turn b i with
            | none => simp [hq] at hs
            | some q => rw [hq] at hs; injection hs with hs; subst hs; exact hp
          · cases hs
        | cbReturn => simp only [step] at hs; split at hs; injection hs with hs; subst hs; exact hp; cases hs
        | cbClose => simp only [step] at hs; split at hs; injection hs with hs; subst hs; exact hp; cases hs
        | _ => simp [isWorker] at ha

example : ∃ s, run true ({} : St scanner) (scanUp ++ [.w, .sys w1] ++ closing) = some s ∧ Released s ∧ ∀ c n, s.w ≠ .selfClose c n :=
  ⟨_, rfl, rfl, by intro c n h; cases h⟩

/-! ## C91 -/

/-- C91, the full claim: on Windows, once the stop flag is set, the number of steps the worker still makes is bounded, but
for deliveries. -/
def C91_full : Prop := ∀ (d : Bool) (s : St windows), Reachable windows d s → Released s → ∃ bound, ∀ (acts : List (Act windows)) (s' : St windows),
  Act.cbClose ∉ acts → run d s acts = some s' → (acts.filter isWorker).length ≤ bound + 2 * ((callbacks s'.log).length - (callbacks s.log).length)

private def stuckAt : St windows :=
  { is := .released, w := .turn ({ valid := true, ready := 20, evs := [], armed := true, said := [] }, .first), o := .closing .get,
    log := [.cb (.live true), .closeCall] }
private def again : List (Act windows) := [.sys .none, .w, .w]

private theorem stuck : ∀ n, run true stuckAt (List.replicate n again).flatten = some stuckAt := by
  intro n
  induction n with
  | zero => rfl
  | succ n ih =>
    rw [List.replicate_succ, List.flatten_cons, run_append]
    have : run true stuckAt again = some stuckAt := rfl
    rw [this]; exact ih

/-- The full claim does not hold of the code: the loop at line 1950 only sends and does not ask for the stop flag, so
if the first read is answered at once, `close()` waits for ever. -/
theorem C91_full_refuted : ¬ C91_full := by
  intro h
  obtain ⟨bound, hb⟩ := h true stuckAt ⟨[.w, .w, .w, .cbReturn, .sys (.opened true (.ok 20 [])), .w, .w] ++ closing, rfl⟩ rfl
  have := hb (List.replicate (bound + 1) again).flatten stuckAt ?_ (stuck _)
  · have hlen : ∀ n, ((List.replicate n again).flatten.filter isWorker).length = 3 * n := by
      intro n
      induction n with
      | zero => rfl
      | succ n ih =>
        rw [List.replicate_succ, List.flatten_cons, List.filter_append, List.length_append, ih]
        have : (again.filter isWorker).length = 3 := rfl
        omega
    rw [hlen] at this
    omega
  · intro hx
    simp only [List.mem_flatten, List.mem_replicate] at hx
    obtain ⟨l, ⟨_, rfl⟩, hl⟩ := hx
    simp [again] at hl

/-- C91 (partial: reads are queued, not answered at once). Then, once the stop flag is set, the worker makes at most
sixteen more steps and two for each event it still delivers. Missing: reads that are answered at once, for which the
claim is false. -/
theorem C91_windows_close_terminates_partial (d : Bool) (before acts : List (Act windows)) (s s' : St windows) (h : run d {} before = some s)
    (hrel : Released s) (hns : ∀ c n, s.w ≠ .selfClose c n) (hq : ∀ i ∈ answers before ++ answers acts, Queued i) (hc : Act.cbClose ∉ acts)
    (hr : run d s acts = some s') :
    ∃ new, callbacks s'.log = callbacks s.log ++ new ∧ (acts.filter isWorker).length ≤ 16 + 2 * new.length := by
  have hi := inv_reached h
  obtain ⟨new, hn⟩ := run_log hr
  have hcb : callbacks s'.log = callbacks s.log ++ callbacks new := by rw [hn, callbacks_append]
  refine ⟨callbacks new, hcb, ?_⟩
  have hg : GoodAt winGood s.w := win_good hi (fun i hi => hq i (List.mem_append_left _ hi))
  have hrel' : s.is ≠ .pending := by rw [show s.is = .released from hrel]; simp
  have := phi_run windows_prompt acts s s' hrel' hg (fun a ha => by
    cases a with
    | sys i => exact hq i (List.mem_append_right _ (mem_answers ha))
    | cbClose => exact absurd ha hc
    | _ => trivial) hr
  rw [hcb, List.length_append] at this
  have hrank : ∀ b, winRank b ≤ 2 := by intro b; unfold winRank; split <;> (try split) <;> simp
  have flat : ∀ w : WPc windows, plain w = true → phi winRank 2 w ≤ 15 := by
    intro w hw
    cases w with
    | inCb n => simp [plain] at hw
    | selfClose c n => simp [plain] at hw
    | head b => have := hrank b; simp only [phi]; split <;> omega
    | turn b => have := hrank b; simp only [phi]; omega
    | deliver es n =>
      cases n with
      | inl b => have := hrank b; simp only [phi, phiNext]; split <;> omega
      | inr r => simp [phi, phiNext]
    | _ => simp [phi]
  have hb : phi winRank 2 s.w ≤ 16 := by
    cases hw : s.w with
    | inCb n => have := flat n (hi.nest1 n hw); simp only [phi]; omega
    | selfClose c n => exact absurd hw (hns c n)
    | _ => refine Nat.le_succ_of_le (flat _ ?_); simp [plain]
  omega

/-- C91 (partial: the same): and there is always a way to the end, where every waiting `close()` or destructor goes on. -/
theorem C91_windows_close_returns_partial (d : Bool) (before : List (Act windows)) (s : St windows) (h : run d {} before = some s) (hrel : Released s)
    (hq : ∀ i ∈ answers before, Queued i) (hns : ∀ c n, s.w ≠ .selfClose c n) :
    ∃ acts s', (∀ a ∈ acts, a ≠ .cbClose ∧ isWorker a = true) ∧ run d s acts = some s' ∧ s'.w = .finished ∧
      (s'.o ≠ .idle → s'.o ≠ .gone → (oStep s').isSome = true) := by
  have hi := inv_reached h
  have hg : GoodAt winGood s.w := win_good hi hq
  have hrel' : s.is ≠ .pending := by rw [show s.is = .released from hrel]; simp
  obtain ⟨acts, s', h1, h2, h3⟩ := reach_end windows_prompt windows_start windows_turn _ s _ (Nat.le_refl _) hi hrel' hg hns
  refine ⟨acts, s', ?_, h2, h3, owner_goes_on (inv_run hi h2) h3⟩
  intro a ha
  refine ⟨?_, (h1 a ha).2⟩
  rintro rfl
  exact (h1 _ ha).1

private def queuedB : WinAns → Bool
  | .opened _ (.ok n _) => n == 0
  | .read (.ok n _) => n == 0
  | _ => true

private theorem allQueued (l : List WinAns) (h : l.all queuedB = true) : ∀ i ∈ l, Queued i := by
  intro i hi
  have := List.all_eq_true.1 h i hi
  cases i with
  | opened v a => cases a <;> simp_all [queuedB, Queued]
  | read a => cases a <;> simp_all [queuedB, Queued]
  | _ => trivial

example : ∃ s, run true ({} : St windows) (winUp ++ [.w, .sys (.completion (some (20, [we 97]))), .w, .w] ++ closing) = some s ∧ Released s ∧
    (∀ i ∈ answers (winUp ++ [.w, .sys (.completion (some (20, [we 97]))), .w, .w] ++ closing), Queued i) ∧ ∀ c n, s.w ≠ .selfClose c n :=
  ⟨_, rfl, rfl, allQueued _ (by decide), by intro c n h; cases h⟩

/-! ## C92 -/

/-- C92: a callback that calls `close()` never returns: in every continuation it is still inside that call, no further
event is delivered (in particular no die message), and no `close()` of the owner and no destructor returns. -/
theorem C92_close_in_callback_hangs (B : Backend) (d : Bool) (s s' : St B) (acts : List (Act B)) (c : ClosePc) (n : WPc B) (h : Reachable B d s)
    (hw : s.w = .selfClose c n) (hr : run d s acts = some s') :
    (∃ c', s'.w = .selfClose c' n) ∧ callbacks s'.log = callbacks s.log ∧ (∀ b, Obs.closeRet b ∉ s'.log) ∧ Obs.dtorRet ∉ s'.log :=
  selfClose_run h hw hr

/-- C92: and its call does wait: after two steps it stands still. -/
theorem C92_close_in_callback_waits (B : Backend) (d : Bool) (s : St B) (n : WPc B) (h : Reachable B d s) (hw : s.w = .selfClose .get n) (a : Act B)
    (ha : isWorker a = true) : step d s a = none := by
  obtain ⟨is, hi⟩ := inv_reachable h
  have hfn := fut_none hi (by rw [hw]; intro e; cases e)
  cases a <;> simp [isWorker] at ha <;> simp [step, wStep, hw, closeStep, hfn]

example : ∃ s n, run true ({} : St scanner) [.w, .w, .w, .cbClose, .w, .w] = some s ∧ s.w = .selfClose .get n := ⟨_, _, rfl, rfl⟩

/-! ## C93 -/

/-- C93: on a path that is not an existing directory the callback gets exactly the two messages `e/self/live@` and
`e/self/die@`, the system is never asked for anything, and no `close()` returns true. -/
theorem C93_bad_path (B : Backend) (acts : List (Act B)) (s : St B) (h : run false {} acts = some s) :
    (callbacks s.log <+: [.live false, .die false]) ∧ (s.w = .finished → callbacks s.log = [.live false, .die false]) ∧
    answers acts = [] ∧ Obs.closeRet true ∉ s.log := by
  have hi := inv_reached h
  have hs := hi.shape
  have hno : Obs.closeRet true ∉ s.log := by
    intro hy
    have hf := hi.yes hy
    have hw := hi.fin.1 (by simp [hf])
    simp only [Shape, hw, place] at hs
    obtain ⟨r, hf', ⟨rfl, _⟩ | ⟨hd, _⟩⟩ := hs
    · rw [hf] at hf'; cases hf'
    · cases hd
  suffices hx : (callbacks s.log <+: [.live false, .die false]) ∧ (place s.w = .finished → callbacks s.log = [.live false, .die false]) ∧ answers acts = [] by
    exact ⟨hx.1, fun hw => hx.2.1 (by simp [hw, place]), hx.2.2, hno⟩
  unfold Shape at hs
  cases hp : place s.w with
  | start => rw [hp] at hs; rw [hs.1]; exact ⟨by simp, by simp, hs.2.2⟩
  | check => rw [hp] at hs; cases hs.2.2.1
  | live pre => rw [hp] at hs; rw [hs.1]; exact ⟨by simp, by simp, hs.2.2.2⟩
  | opening => rw [hp] at hs; cases hs.2.2.1
  | deliver es n => rw [hp] at hs; obtain ⟨_, _, _, _, hd⟩ := hs; cases hd
  | head b => rw [hp] at hs; obtain ⟨_, _, _, _, hd⟩ := hs; cases hd
  | turn b => rw [hp] at hs; obtain ⟨_, _, _, _, hd⟩ := hs; cases hd
  | die pre post =>
    rw [hp] at hs
    obtain ⟨_, ⟨_, _, hc, ha⟩ | ⟨_, hd, _⟩⟩ := hs
    · rw [hc]; exact ⟨⟨[.die false], rfl⟩, by simp, ha⟩
    · cases hd
  | setFut r =>
    rw [hp] at hs
    obtain ⟨_, ⟨_, hc, ha⟩ | ⟨hd, _⟩⟩ := hs
    · rw [hc]; exact ⟨⟨[], rfl⟩, by simp, ha⟩
    · cases hd
  | finished =>
    rw [hp] at hs
    obtain ⟨r, _, ⟨_, hc, ha⟩ | ⟨hd, _⟩⟩ := hs
    · rw [hc]; exact ⟨⟨[], rfl⟩, by simp, ha⟩
    · cases hd
  | inCb n => have := plain_place s.w; rw [hp] at this; cases this
  | selfClose c n => have := plain_place s.w; rw [hp] at this; cases this

example : (run false ({} : St scanner) [.w, .w, .cbReturn, .w, .cbReturn, .w]).map (fun s => callbacks s.log) = some [.live false, .die false] := rfl

/-- C93, the full claim: a `close()` called before the live message was sent returns false. -/
def C93_full : Prop := ∀ (B : Backend) (d : Bool) (s : St B), Reachable B d s → ∀ l1 l2 l3,
  s.log = l1 ++ .closeCall :: l2 ++ .closeRet true :: l3 → callbacks l1 ≠ []

/-- The full claim does not hold of the code: `close()` may fall between the worker's check of the flag and the live
message; then the loop's condition sees the flag, and all is reported to be well. -/
theorem C93_full_refuted : ¬ C93_full := by
  intro h
  exact h scanner true _ ⟨[.w, .w] ++ closing ++ [.w, .cbReturn, .sys w1, .w, .w, .w, .cbReturn, .w, .o], rfl⟩
    [] [.cb (.live true), .cb (.die true)] [] rfl rfl

/-- C93 (partial: the flag is set before the worker's check). Then no `close()` ever returns true, and the live message
is `e/self/live@`. Missing: closes between the check and the live message, for which the claim is false. -/
theorem C93_early_close_fails_partial (B : Backend) (d : Bool) (s s' : St B) (acts : List (Act B)) (h : Reachable B d s) (hrel : Released s)
    (hw : s.w = .start ∨ s.w = .check) (hr : run d s acts = some s') :
    Obs.closeRet true ∉ s'.log ∧ Obs.cb (.live true) ∉ s'.log := by
  obtain ⟨is, hi⟩ := inv_reachable h
  have hdo : Doomed s := .inl ⟨hw, by rw [show s.is = .released from hrel]; simp⟩
  have hd' := doomed_run hi hdo hr
  obtain ⟨is', hi'⟩ := inv_reachable (reachable_run h hr)
  refine ⟨?_, ?_⟩
  · intro hy
    have hf := hi'.yes hy
    have hw' := hi'.fin.1 (by simp [hf])
    simp only [Doomed, hw', place] at hd'
    rcases hd' with h | h | h | h | h
    · rcases h.1 with h | h <;> cases h
    · cases h
    · cases h
    · cases h
    · rw [hf] at h; cases h.2
  · intro hy
    have hmem := mem_callbacks hy
    have h0 : callbacks s.log = [] := by
      have hs := hi.shape
      rcases hw with hw | hw <;> (simp only [Shape, hw, place] at hs; exact hs.1)
    exact doomed_run_live hi hdo (by rw [h0]; simp) hr hmem

example : ∃ s, run true ({} : St scanner) ([.w] ++ closing) = some s ∧ Released s ∧ s.w = .check := ⟨_, rfl, rfl, rfl⟩

/-! ## C94 -/

/-- C94, the scanner: when the worker is done after an `s/self/live@`, the callback has got exactly the events of the
passes the scanner made over what the system showed it (`Warthog.watch`, C52 - C54), in that order, none added, none left
out; the die message says `s` if the flag ended it, and `e` if a pass failed. -/
theorem C94_scanner_delivers_exactly (d : Bool) (acts : List (Act scanner)) (s : St scanner) (h : run d {} acts = some s) (hw : s.w = .finished)
    (hl : Obs.cb (.live true) ∈ s.log) :
    ∃ (w0 : Warthog.World) (ws : List Warthog.World) (r : Bool), answers acts = w0 :: ws ∧ ws.length % 2 = 0 ∧
      callbacks s.log = .live true :: (Warthog.watch (pairs ws)).out.map .ev ++ [.die r] ∧
      (r = true → Released s ∧ ∃ b, Warthog.watch (pairs ws) = .going b (Warthog.watch (pairs ws)).out) ∧
      (r = false → Warthog.watch (pairs ws) = .ended (Warthog.watch (pairs ws)).out) := by
  have hi := inv_reached h
  have hs := hi.shape
  simp only [Shape, hw, place] at hs
  obtain ⟨r, _, ⟨_, hc, _⟩ | ⟨_, done, hc, ho⟩⟩ := hs
  · exact absurd (mem_callbacks hl) (by rw [hc]; simp)
  · have hne : ∃ w0 ws, answers acts = w0 :: ws := by
      cases ha : answers acts with
      | nil => rw [ha] at ho; rcases ho with ho | ⟨_, _, b, ho, _⟩ <;> simp [plays] at ho
      | cons w0 ws => exact ⟨w0, ws, rfl⟩
    obtain ⟨w0, ws, ha⟩ := hne
    rw [ha] at ho
    refine ⟨w0, ws, r, ha, ?_⟩
    rcases ho with ho | ⟨rfl, hne, ⟨b, t⟩, ho, hh⟩
    · obtain ⟨hr, hlen, hwt⟩ := scan_at w0 ws done _ ho
      subst hr
      rw [hwt]
      exact ⟨hlen, hc, by simp, fun _ => rfl⟩
    · have ht : t = false := by revert hh; cases t <;> simp [scanner]
      subst ht
      obtain ⟨hlen, hwt⟩ := scan_at w0 ws done _ ho
      rw [hwt]
      exact ⟨hlen, hc, fun _ => ⟨hi.sig.resolve_left hne, b, rfl⟩, by simp⟩

/-- C94, the scanner: a whole life over a tree that does not change: nothing but the two messages, and the watcher ends
well. -/
theorem C94_scanner_quiet_life (acts : List (Act scanner)) (s : St scanner) (exist : Str → Bool) (t : CalmDir) (h : run true {} acts = some s)
    (hw : s.w = .finished) (hl : Obs.cb (.live true) ∈ s.log) (hq : ∀ w ∈ answers acts, w = t.world exist) :
    callbacks s.log = [.live true, .die true] := by
  obtain ⟨w0, ws, r, ha, hlen, hc, ht, hf⟩ := C94_scanner_delivers_exactly true acts s h hw hl
  have hp : ∀ (n : Nat) (ws : List Warthog.World), ws.length = 2 * n → (∀ w ∈ ws, w = t.world exist) → pairs ws = List.replicate n (t.world exist, t.world exist) := by
    intro n
    induction n with
    | zero => intro ws h _; have : ws = [] := List.length_eq_zero_iff.1 (by omega); subst this; rfl
    | succ n ih =>
      intro ws h hw
      match ws, h with
      | a :: b :: r, h =>
        have h1 := hw a (by simp)
        have h2 := hw b (by simp)
        have h3 := ih r (by simp only [List.length_cons] at h; omega) (fun w hx => hw w (by simp [hx]))
        rw [h1, h2]
        simp only [pairs, h3, List.replicate_succ]
      | [a], h => simp only [List.length_cons, List.length_nil] at h; omega
      | [], h => simp only [List.length_nil] at h; omega
  have hps := hp (ws.length / 2) ws (by omega) (fun w hx => hq w (by rw [ha]; exact List.mem_cons_of_mem _ hx))
  have hpq : pairs ws = quietPasses exist (List.replicate (ws.length / 2) t) := by
    rw [hps]; simp [quietPasses, Spec.Warthog.passes]
  have hout : (Warthog.watch (pairs ws)).out = [] := by rw [hpq]; exact Props.C52_quiet_from_start exist t _
  have hgo : ∃ b out, Warthog.watch (pairs ws) = .going b out := by
    rw [hpq]
    simp only [quietPasses]
    exact Props.C69_scanner_goes_on_partial exist _
  obtain ⟨b, out, hgo⟩ := hgo
  have hr : r = true := by
    cases r with
    | true => rfl
    | false => have := hf rfl; rw [hgo] at this; cases this
  rw [hc, hout, hr]; rfl

/-- C94, Windows: when the worker is done and says that all is well, the callback has got exactly what the turns of the
loop said (`Windows.turns`, C66): with the first read's answer, the completions and the later reads' answers that the system
gave, in that order. -/
theorem C94_windows_delivers_exactly (d : Bool) (acts : List (Act windows)) (s : St windows) (h : run d {} acts = some s) (hw : s.w = .finished)
    (hl : Obs.cb (.die true) ∈ s.log) :
    ∃ (a : Windows.ReadAnswer) (is : List WinAns) (w : Windows.Win), answers acts = .opened true a :: is ∧
      Windows.turns (Windows.start a) (group is) = some w ∧ callbacks s.log = .live true :: w.said.map .ev ++ [.die true] ∧ Released s := by
  have hi := inv_reached h
  have hs := hi.shape
  simp only [Shape, hw, place] at hs
  obtain ⟨r, _, ⟨_, hc, _⟩ | ⟨_, done, hc, ho⟩⟩ := hs
  · exact absurd (mem_callbacks hl) (by rw [hc]; simp)
  · have hm := mem_callbacks hl
    have hr : r = true := by
      rw [hc] at hm
      rcases List.mem_append.1 hm with hm | hm
      · rcases List.mem_cons.1 hm with hm | hm
        · cases hm
        · obtain ⟨e, _, he⟩ := List.mem_map.1 hm; cases he
      · have := List.mem_singleton.1 hm; injection this with this; exact this.symm
    subst hr
    have hne : ∃ i is, answers acts = i :: is := by
      cases ha : answers acts with
      | nil => rw [ha] at ho; rcases ho with ho | ⟨_, _, b, ho, _⟩ <;> simp [plays] at ho
      | cons i is => exact ⟨i, is, rfl⟩
    obtain ⟨i, is, ha⟩ := hne
    rw [ha] at ho
    rcases ho with ho | ⟨_, hne, ⟨w, at'⟩, ho, hh⟩
    · exact absurd (win_is i is done _ ho).1 (by simp)
    · have hat : at' = .outer := by revert hh; cases at' <;> simp [windows]
      subst hat
      obtain ⟨a, w', rfl, ht, hd, _⟩ := win_is i is done _ ho
      exact ⟨a, is, w', ha, ht, by rw [hc, hd]; rfl, hi.sig.resolve_left hne⟩

/-- C94, Windows: a whole life without read errors and overflows: every batch of every completed read is delivered, in
order and once, between the two messages. -/
theorem C94_windows_smooth_life (d : Bool) (acts : List (Act windows)) (s : St windows) (h : run d {} acts = some s) (hw : s.w = .finished)
    (hl : Obs.cb (.die true) ∈ s.log) (is : List WinAns) (ha : answers acts = .opened true (.ok 0 []) :: is) (hsm : Props.Smooth (group is)) :
    callbacks s.log = .live true :: ((Props.completed (group is)).flatten.map (fun e => Msg.ev (.ev e))) ++ [.die true] := by
  obtain ⟨a, is', w, ha', ht, hc, _⟩ := C94_windows_delivers_exactly d acts s h hw hl
  rw [ha] at ha'
  injection ha' with h1 h2
  injection h1 with _ h1
  subst h1; subst h2
  obtain ⟨w', ht', _, hsaid⟩ := Props.C66_windows_all_batches_partial (group is) hsm
  rw [ht] at ht'; injection ht' with ht'; subst ht'
  have hm : ∀ l : List Windows.WEv, (l.map Windows.Said.ev).map (Msg.ev : Windows.Said → Msg Windows.Said) = l.map (fun e => Msg.ev (.ev e)) := by
    intro l; simp
  rw [hc, hsaid]
  exact congrArg (fun l => Msg.live true :: l ++ [Msg.die true]) (hm _)

private def calmTree : CalmDir := ⟨[fileA], by decide, by decide⟩
private def quietLife : List (Act scanner) :=
  [.w, .w, .w, .cbReturn, .sys (calmTree.world all), .w] ++ [.w, .sys (calmTree.world all), .w, .w, .sys (calmTree.world all), .w] ++ closing ++ scanEnd ++ [.o]
example : ∃ s, run true ({} : St scanner) quietLife = some s ∧ s.w = .finished ∧ Obs.cb (.live true) ∈ s.log ∧ ∀ w ∈ answers quietLife, w = calmTree.world all := by
  refine ⟨_, rfl, rfl, List.mem_cons_self .., ?_⟩
  have : answers quietLife = List.replicate 3 (calmTree.world all) := rfl
  rw [this]
  intro w hw
  exact (List.mem_replicate.1 hw).2
example : ∃ s, run true ({} : St windows) winLife = some s ∧ s.w = .finished ∧ callbacks s.log = [.live true, .ev (.ev (we 97)), .die true] ∧
    answers winLife = WinAns.opened true (.ok 0 []) :: [.none, .completion (some (20, [we 97])), .read (.ok 0 []), .none] :=
  ⟨_, rfl, rfl, rfl, rfl⟩
example : Props.Smooth (group [.none, .completion (some (20, [we 97])), .read (.ok 0 []), .none]) := by
  refine ⟨by simp [group], ?_⟩
  intro n evs rs h
  simp [group, reads] at h
  obtain ⟨rfl, rfl, rfl⟩ := h
  exact ⟨by simp, [], rfl⟩

end Verif.Props.Poll
