import Verif.Lemmas.Bindings
/-!
# Properties of the C interface and of the bindings (C55 - C60, C71 - C76)
-/

namespace Verif.Props
open Verif Verif.Model Verif.Model.Bind Verif.Spec Verif.Spec.Bind Verif.Lemmas Verif.Lemmas.Bind

/-! ## C55 -/

/-- C55: the C event has the same time, the constants of the header, and - for names a C string can carry,
which are all names an operating system can give - the same paths, the associated one exactly when there is
an associated event. -/
theorem C55_c_event (ev : Event) (hp : NoNul ev.path) (ha : ∀ a, ev.assoc = some a → NoNul a.path) :
    (cView ev).time = ev.time ∧ (cView ev).path = ev.path ∧ (cView ev).assoc = ev.assoc.map Event.path ∧
    (cView ev).effect = headerEffect ev.effect ∧ (cView ev).ptype = headerPath ev.ptype := by
  obtain ⟨p, e, t, tm, a⟩ := ev
  refine ⟨rfl, cRead_eq hp, ?_, by cases e <;> rfl, by cases t <;> rfl⟩
  cases a with
  | none => rfl
  | some a => exact congrArg some (cRead_eq (ha a rfl))

/-- C55: the three decoders give every code of the header the same, documented name. -/
theorem C55_codes_agree (e : EffectType) (t : PathType) :
    (rsEffect (headerEffect e)).serde = effectName e ∧ (rsPath (headerPath t)).serde = pathTypeName t ∧
    byCode pyEffects (headerEffect e) = some (effectName e) ∧ byCode pyPaths (headerPath t) = some (pathTypeName t) ∧
    byCode tsEffects (headerEffect e) = some (effectName e) ∧ byCode tsPaths (headerPath t) = some (camelPath t) := by
  cases e <;> cases t <;> decide

/-- C55: different codes get different names, and a code the header does not have is `Other` in Rust, an
error in Python and `undefined` in JavaScript. -/
theorem C55_foreign_codes (c : Int) (h : c < 0 ∨ 5 < c) :
    rsEffect c = .Other ∧ rsPath c = .Other ∧ byCode pyEffects c = none ∧ byCode pyPaths c = none ∧
    byCode tsEffects c = none ∧ byCode tsPaths c = none := by
  have hb : ∀ l : List Str, l.length = 6 → byCode l c = none := by
    intro l hl
    unfold byCode
    split
    · rfl
    · rw [List.getElem?_eq_none]; omega
  refine ⟨?_, ?_, hb _ rfl, hb _ rfl, hb _ rfl, hb _ rfl⟩
  · unfold rsEffect; repeat' split
    all_goals first | omega | rfl
  · unfold rsPath; repeat' split
    all_goals first | omega | rfl

/-- The full claim: every event reaches the three languages with its time, names and types. -/
def C55_full : Prop := ∀ (ev : Event) (text : Str → Str), (∀ s, utf8 s → text s = s) →
    NoNul ev.path → (∀ a, ev.assoc = some a → NoNul a.path) →
    (rsEvent utf8 (cView ev)).path = ev.path ∧ (pyEvent utf8 (cView ev)).map (·.path) = some ev.path

/-- C55 (partial: the names are UTF-8 and the associated name is not empty): all three languages see the
event's time (JavaScript: rounded, see C60), path, associated path and the documented names of its types. -/
theorem C55_all_languages_partial (ev : Event) (text : Str → Str) (ht : ∀ s, utf8 s → text s = s)
    (hp : NoNul ev.path) (ha : ∀ a, ev.assoc = some a → NoNul a.path)
    (up : utf8 ev.path) (ua : ∀ a, ev.assoc = some a → utf8 a.path ∧ a.path ≠ []) :
    (∃ e t, rsEvent utf8 (cView ev) = ⟨ev.time, ev.path, ev.assoc.map Event.path, e, t⟩ ∧
      e.serde = effectName ev.effect ∧ t.serde = pathTypeName ev.ptype) ∧
    pyEvent utf8 (cView ev) =
      some ⟨ev.time, ev.path, ev.assoc.map Event.path, effectName ev.effect, pathTypeName ev.ptype⟩ ∧
    jsEvent text (cView ev) =
      ⟨toDouble ev.time, ev.path, ev.assoc.map Event.path, some (effectName ev.effect), some (camelPath ev.ptype)⟩ := by
  obtain ⟨h1, h2, h3, h4, h5⟩ := C55_c_event ev hp ha
  obtain ⟨c1, c2, c3, c4, c5, c6⟩ := C55_codes_agree ev.effect ev.ptype
  refine ⟨⟨rsEffect (headerEffect ev.effect), rsPath (headerPath ev.ptype), ?_, c1, c2⟩, ?_, ?_⟩
  · rw [rsEvent, h1, h2, h3, h4, h5]
    simp only [rsStr, up, if_true, RsEvent.mk.injEq, true_and, and_true]
    cases h : ev.assoc with
    | none => rfl
    | some a => simp [rsStr, (ua a h).1]
  · have hassoc : pyAssoc utf8 (ev.assoc.map Event.path) = some (ev.assoc.map Event.path) := by
      cases h : ev.assoc with
      | none => rfl
      | some a => simp [pyAssoc, pyDecode, (ua a h).1, (ua a h).2]
    rw [pyEvent, h1, h2, h3, h4, h5, c3, c4, hassoc]
    simp [pyDecode, up]
  · rw [jsEvent, h1, h2, h3, h4, h5, c5, c6, ht _ up]
    congr 1
    cases h : ev.assoc with
    | none => rfl
    | some a => simp [ht _ (ua a h).1]

example : ∃ ev : Event, NoNul ev.path ∧ utf8 ev.path ∧ ∃ a, ev.assoc = some a ∧ NoNul a.path ∧ utf8 a.path ∧ a.path ≠ [] :=
  ⟨.mk b!"/tmp/grüße" .rename .file 1704067200000000001 (some (.mk b!"/tmp/日本" .rename .file 1704067200000000001 none)),
   by decide +kernel⟩

/-- C55 is false of the code: a file whose name is not UTF-8 is reported by Rust with an empty path, and not at
all by Python. -/
theorem C55_refuted : ¬ C55_full ∧ ∃ ev : Event, NoNul ev.path ∧ ev.path ≠ [] ∧
    (rsEvent utf8 (cView ev)).path = [] ∧ pyEvent utf8 (cView ev) = none := by
  have w : ∃ ev : Event, ev.assoc = none ∧ NoNul ev.path ∧ ev.path ≠ [] ∧
    (rsEvent utf8 (cView ev)).path = [] ∧ pyEvent utf8 (cView ev) = none :=
    ⟨.mk [47, 0xFF] .create .file 0 none, by decide +kernel⟩
  obtain ⟨ev, h0, h1, h2, h3, h4⟩ := w
  refine ⟨fun h => ?_, ev, h1, h2, h3, h4⟩
  have := (h ev id (fun _ _ => rfl) h1 (by simp [h0])).1
  rw [h3] at this
  exact h2 this.symm

/-! ## C56 -/

/-- A program's calls so far, what it saw, and the objects. -/
inductive CalledSoFar : List Obs → Heap → Prop where
  | start : CalledSoFar [] []
  | opened {seen heap} (r : Bool) : CalledSoFar seen heap →
      CalledSoFar (seen ++ [.opened (cOpen r heap).1]) (cOpen r heap).2
  | closed {seen heap h b heap'} (relErr : Bool) : CalledSoFar seen heap → mayClose seen h →
      cClose relErr heap h = .ok (b, heap') → CalledSoFar (seen ++ [.closed h b]) heap'

private theorem called_inv {seen : List Obs} {heap : Heap} (h : CalledSoFar seen heap) :
    (∀ i, Obs.opened (some i) ∈ seen ↔ i < heap.length) ∧ Obs.opened none ∉ seen ∧
    (∀ i, Obs.closed (some i) true ∈ seen ↔ heap[i]? = some .freed) ∧ Obs.closed none true ∉ seen := by
  induction h with
  | start => simp
  | @opened seen heap r _ ih =>
    obtain ⟨a, b, c, d⟩ := ih
    simp only [cOpen, List.mem_append, List.mem_singleton, List.length_append, List.length_singleton,
      Obs.opened.injEq, Option.some.injEq, reduceCtorEq, or_false]
    refine ⟨fun i => by rw [a i]; omega, b, fun i => ?_, d⟩
    rw [c i]
    by_cases hi : i < heap.length
    · rw [List.getElem?_append_left hi]
    · rw [List.getElem?_eq_none (by omega), List.getElem?_append_right (by omega)]
      by_cases h2 : i - heap.length = 0
      · simp [h2]
      · rw [List.getElem?_eq_none (by simp; omega)]
  | @closed seen heap h b heap' relErr _ hm hc ih =>
    obtain ⟨a, b', c, d⟩ := ih
    cases h with
    | none =>
      simp only [cClose, Outcome.ok.injEq, Prod.mk.injEq] at hc
      obtain ⟨rfl, rfl⟩ := hc
      simp only [List.mem_append, List.mem_singleton, reduceCtorEq, or_false, Obs.closed.injEq, and_false]
      refine ⟨a, b', fun i => ?_, by simpa using d⟩
      rw [c i]
    | some j =>
      have hj : heap[j]? ≠ some .freed := by
        rcases hm with e | ⟨_, e⟩
        · cases e
        · exact fun e' => e ((c j).mpr e')
      simp only [cClose] at hc
      cases ho : heap[j]? with
      | none => rw [ho] at hc; cases hc
      | some o =>
        rw [ho] at hc
        have hlt : j < heap.length := by
          rcases Nat.lt_or_ge j heap.length with h | h
          · exact h
          · rw [List.getElem?_eq_none h] at ho; cases ho
        cases hcc : cCloseObj relErr o with
        | ub w => simp [hcc] at hc
        | ok p =>
          obtain ⟨b2, o2⟩ := p
          simp only [hcc, Outcome.bind_ok, Outcome.pure_eq, Outcome.ok.injEq, Prod.mk.injEq] at hc
          obtain ⟨rfl, rfl⟩ := hc
          have hfreed : (b2 = true ↔ o2 = .freed) := by
            cases o with
            | freed => exact absurd ho hj
            | spent => simp [cCloseObj, objClose] at hcc; obtain ⟨rfl, rfl⟩ := hcc; simp
            | fresh r =>
              cases relErr <;> cases r <;> simp [cCloseObj, objClose] at hcc <;> obtain ⟨rfl, rfl⟩ := hcc <;> simp
          simp only [List.mem_append, List.mem_singleton, reduceCtorEq, or_false, Obs.closed.injEq,
            List.length_set, Option.some.injEq, false_and]
          refine ⟨a, b', fun i => ?_, d⟩
          by_cases hij : j = i
          · subst hij
            rw [List.getElem?_set_self hlt, c j]
            simp only [Option.some.injEq, true_and]
            constructor
            · rintro (h | h)
              · exact absurd h hj
              · exact hfreed.mp h.symm
            · intro h; exact .inr (hfreed.mpr h).symm
          · rw [List.getElem?_set_ne hij, c i]
            constructor
            · rintro (h | ⟨h, _⟩)
              · exact h
              · exact absurd h.symm hij
            · exact .inl

/-- C56: whatever a program did before, a close that respects the rule for handles touches no freed memory. -/
theorem C56_no_use_after_free {seen : List Obs} {heap : Heap} (h : CalledSoFar seen heap) (hd : Option Nat)
    (hm : mayClose seen hd) (relErr : Bool) : ∃ b heap', cClose relErr heap hd = .ok (b, heap') := by
  obtain ⟨a, b', c, d⟩ := called_inv h
  cases hd with
  | none => exact ⟨false, heap, rfl⟩
  | some j =>
    rcases hm with e | ⟨h1, h2⟩
    · cases e
    · have hlt := (a j).mp h1
      obtain ⟨o, ho⟩ : ∃ o, heap[j]? = some o := ⟨heap[j], List.getElem?_eq_getElem hlt⟩
      have hne : o ≠ .freed := by rintro rfl; exact h2 ((c j).mpr ho)
      simp only [cClose, ho]
      cases o with
      | freed => exact absurd rfl hne
      | spent => exact ⟨_, _, rfl⟩
      | fresh r => cases relErr <;> cases r <;> exact ⟨_, _, rfl⟩

/-- C56: a watcher's memory is given back exactly when closing it answered true. -/
theorem C56_freed_iff_closed {seen : List Obs} {heap : Heap} (h : CalledSoFar seen heap) (i : Nat) :
    heap[i]? = some .freed ↔ Obs.closed (some i) true ∈ seen := ((called_inv h).2.2.1 i).symm

/-- C56: closing null answers false and changes nothing; closing a running watch answers what its own
close answers. -/
theorem C56_answers (relErr : Bool) (heap : Heap) (i : Nat) (r : Bool) (hi : heap[i]? = some (.fresh r)) :
    cClose relErr heap none = .ok (false, heap) ∧
    (cClose false heap (some i)) = .ok (r, heap.set i (if r then .freed else .spent)) ∧
    (cClose true heap (some i)) = .ok (false, heap) := by
  have hlt : i < heap.length := by
    rcases Nat.lt_or_ge i heap.length with h | h
    · exact h
    · rw [List.getElem?_eq_none h] at hi; cases hi
  refine ⟨rfl, ?_, ?_⟩
  · simp only [cClose, hi]; cases r <;> rfl
  · simp only [cClose, hi, cCloseObj, objClose]
    simp only [if_true, Outcome.bind_ok, Bool.not_false, Outcome.pure_eq, Outcome.ok.injEq, Prod.mk.injEq, true_and]
    rw [List.getElem?_eq_getElem hlt, Option.some.injEq] at hi
    rw [← hi, List.set_getElem_self]

/-- C56, the other direction: the rule is needed. -/
theorem C56_rule_is_needed {seen : List Obs} {heap : Heap} (h : CalledSoFar seen heap) (i : Nat)
    (hc : Obs.closed (some i) true ∈ seen) (relErr : Bool) : ∃ why, cClose relErr heap (some i) = .ub why := by
  have := (C56_freed_iff_closed h i).mpr hc
  exact ⟨_, by simp only [cClose, this]; rfl⟩

/-- C56, for the record: a watcher whose close answered false after its thread had ended can never be freed. -/
theorem C56_failed_close_leaks (relErr : Bool) (heap : Heap) (i : Nat) (hi : heap[i]? = some .spent) :
    cClose relErr heap (some i) = .ok (false, heap) := by
  have hlt : i < heap.length := by
    rcases Nat.lt_or_ge i heap.length with h | h
    · exact h
    · rw [List.getElem?_eq_none h] at hi; cases hi
  simp only [cClose, hi, cCloseObj, objClose]
  simp only [Outcome.bind_ok, Bool.not_false, if_true, Outcome.pure_eq, Outcome.ok.injEq, Prod.mk.injEq, true_and]
  rw [List.getElem?_eq_getElem hlt, Option.some.injEq] at hi
  rw [← hi, List.set_getElem_self]

example : CalledSoFar [.opened (some 0), .opened (some 1), .closed (some 0) true, .closed none false]
    [.freed, .fresh false] :=
  .closed (h := none) (heap := [.freed, .fresh false]) false
    (.closed (h := some 0) (heap := [.fresh true, .fresh false]) false (.opened false (.opened true .start)) (.inr (by decide)) rfl)
    (.inl rfl) rfl

/-! ## C57 -/

/-- The operations a Rust program can make on one watch: closes (and events of the running thread), and a
drop at the end, after which only the thread can act. -/
def RsProgram (ops : List RsOp) : Prop :=
  ∃ body e tail, ops = body ++ .drop e :: tail ∧ (∀ o ∈ body, ∀ e', o ≠ .drop e') ∧ (∀ o ∈ tail, o = .event)

/-- The full claim: close a watch as often as you like and drop it. -/
def C57_full : Prop := ∀ r ops, RsProgram ops → ∃ s, rsRun ⟨.fresh r, false⟩ ops = .ok s

private theorem rsRun_append (a b : List RsOp) (s : Held) :
    rsRun s (a ++ b) = (rsRun s a >>= fun s => rsRun s b) := by
  induction a generalizing s with
  | nil => rfl
  | cons x xs ih =>
    simp only [List.cons_append, rsRun]
    cases rsStep s x with
    | ub w => rfl
    | ok s' => exact ih s'

private theorem rsRun_events (tail : List RsOp) (h : ∀ o ∈ tail, o = .event) (s : Held)
    (hs : s.ctxFreed = false ∨ ∀ r, s.obj ≠ .fresh r) : rsRun s tail = .ok s := by
  induction tail with
  | nil => rfl
  | cons x xs ih =>
    have hx := h x (by simp)
    subst hx
    have he : rsStep s .event = .ok s := by
      simp only [rsStep, deliver]
      cases ho : s.obj with
      | fresh r =>
        rcases hs with h | h
        · simp [h]
        · exact absurd ho (h r)
      | spent => rfl
      | freed => rfl
    rw [rsRun, he]; exact ih (fun o ho => h o (by simp [ho]))

/-- A body with no effective close changes nothing. -/
private theorem rsRun_body (body : List RsOp) (hb : ∀ o ∈ body, ∀ e', o ≠ .drop e')
    (hn : RsOp.close false ∉ body) (r : Bool) : rsRun ⟨.fresh r, false⟩ body = .ok ⟨.fresh r, false⟩ := by
  induction body with
  | nil => rfl
  | cons x xs ih =>
    have hx : rsStep ⟨.fresh r, false⟩ x = .ok ⟨.fresh r, false⟩ := by
      cases x with
      | event => rfl
      | drop e => exact absurd rfl (hb _ (by simp) e)
      | close e => cases e with
        | true => rfl
        | false => exact absurd (by simp) hn
    rw [rsRun, hx]
    exact ih (fun o ho => hb o (by simp [ho])) (fun h => hn (by simp [h]))

private theorem rsRun_spent (body : List RsOp) (hb : ∀ o ∈ body, ∀ e', o ≠ .drop e') :
    rsRun ⟨.spent, false⟩ body = .ok ⟨.spent, false⟩ := by
  induction body with
  | nil => rfl
  | cons x xs ih =>
    have hx : rsStep ⟨.spent, false⟩ x = .ok ⟨.spent, false⟩ := by
      cases x with
      | event => rfl
      | drop e => exact absurd rfl (hb _ (by simp) e)
      | close e => rfl
    rw [rsRun, hx]
    exact ih (fun o ho => hb o (by simp [ho]))

private theorem rsRun_freed (ops : List RsOp) (h : ∃ o ∈ ops, o ≠ .event) :
    ∃ why, rsRun ⟨.freed, false⟩ ops = .ub why := by
  induction ops with
  | nil => obtain ⟨o, ho, _⟩ := h; cases ho
  | cons x xs ih =>
    cases x with
    | close e => exact ⟨_, rfl⟩
    | drop e => exact ⟨_, rfl⟩
    | event =>
      obtain ⟨o, ho, hne⟩ := h
      rcases List.mem_cons.mp ho with e | e
      · exact absurd e hne
      · exact ih ⟨o, e, hne⟩

/-- C57 (partial, exactly when it holds): with a stop signal that can be written at the drop, a Rust program is
safe exactly if the watch's close would answer false or it never calls an effective close before the drop. -/
theorem C57_safe_iff_partial (r : Bool) (body tail : List RsOp)
    (hb : ∀ o ∈ body, ∀ e', o ≠ .drop e') (ht : ∀ o ∈ tail, o = .event) :
    (∃ s, rsRun ⟨.fresh r, false⟩ (body ++ .drop false :: tail) = .ok s) ↔ (r = false ∨ RsOp.close false ∉ body) := by
  constructor
  · rintro ⟨s, hs⟩
    by_cases hn : RsOp.close false ∈ body
    · left
      obtain ⟨b1, b2, rfl, hn1⟩ : ∃ b1 b2, body = b1 ++ RsOp.close false :: b2 ∧ RsOp.close false ∉ b1 := by
        clear hs hb
        induction body with
        | nil => cases hn
        | cons x xs ih =>
          by_cases hx : x = .close false
          · exact ⟨[], xs, by simp [hx], by simp⟩
          · obtain ⟨b1, b2, e, h⟩ := ih (by
              rcases List.mem_cons.mp hn with e | e
              · exact absurd e.symm hx
              · exact e)
            exact ⟨x :: b1, b2, by simp [e], by simp [h]; exact fun h => hx h.symm⟩
      cases r with
      | false => rfl
      | true =>
        exfalso
        rw [List.append_assoc, rsRun_append, rsRun_body b1 (fun o ho => hb o (by simp [ho])) hn1, Outcome.bind_ok,
          List.cons_append, rsRun] at hs
        have hstep : rsStep ⟨.fresh true, false⟩ (.close false) = .ok ⟨.freed, false⟩ := rfl
        rw [hstep, Outcome.bind_ok] at hs
        obtain ⟨why, hw⟩ := rsRun_freed (b2 ++ .drop false :: tail) ⟨.drop false, by simp, by simp⟩
        rw [hw] at hs; cases hs
    · exact .inr hn
  · intro h
    have key : ∃ o, rsRun ⟨.fresh r, false⟩ body = .ok ⟨o, false⟩ ∧ (o = .fresh r ∨ o = .spent) := by
      by_cases hn : RsOp.close false ∈ body
      · have hr : r = false := by rcases h with h | h; exact h; exact absurd hn h
        subst hr
        clear h
        induction body with
        | nil => cases hn
        | cons x xs ih =>
          cases x with
          | drop e => exact absurd rfl (hb _ (by simp) e)
          | event => exact ih (fun o ho => hb o (by simp [ho])) (by simpa using hn)
          | close e =>
            cases e with
            | true => exact ih (fun o ho => hb o (by simp [ho])) (by simpa using hn)
            | false => exact ⟨.spent, rsRun_spent xs (fun o ho => hb o (by simp [ho])), .inr rfl⟩
      · exact ⟨_, rsRun_body body hb hn r, .inl rfl⟩
    obtain ⟨o, ho, hc⟩ := key
    rw [rsRun_append, ho, Outcome.bind_ok, rsRun]
    rcases hc with rfl | rfl
    · cases r with
      | true =>
        refine ⟨⟨.freed, true⟩, ?_⟩
        exact rsRun_events tail ht ⟨.freed, true⟩ (.inr (by simp))
      | false =>
        refine ⟨⟨.spent, true⟩, ?_⟩
        exact rsRun_events tail ht ⟨.spent, true⟩ (.inr (by simp))
    · refine ⟨⟨.spent, true⟩, ?_⟩
      exact rsRun_events tail ht ⟨.spent, true⟩ (.inr (by simp))

/-- C57 is false of the code: close a working watch, let it go out of scope. -/
theorem C57_refuted : ¬ C57_full ∧ ∃ why, rsRun ⟨.fresh true, false⟩ [.close false, .drop false] = .ub why := by
  have w : rsRun ⟨.fresh true, false⟩ [.close false, .drop false] = .ub "close() on a deleted watch" := by decide
  refine ⟨fun h => ?_, _, w⟩
  obtain ⟨s, hs⟩ := h true [.close false, .drop false] ⟨[.close false], false, [], rfl, by simp, by simp⟩
  rw [w] at hs; cases hs

example : (∀ o ∈ [RsOp.event, .close true, .event], ∀ e', o ≠ .drop e') ∧ RsOp.close false ∉ [RsOp.event, .close true, .event] := by
  decide

/-! ## C58 -/

/-- Python's ways of ending a watch. -/
def pyCloses (ops : List PyOp) : Nat := (ops.filter (· ≠ .event)).length

private theorem py_off (ops : List PyOp) : ∀ (s : PyWatch), s.attr = some false →
    (∀ r, s.held.obj ≠ .fresh r) → ∃ s', pyRun s ops = .ok s' ∧ s'.calls = s.calls ∧ s'.raised = s.raised := by
  induction ops with
  | nil => intro s _ _; exact ⟨s, rfl, rfl, rfl⟩
  | cons x xs ih =>
    intro s ha ho
    have hclose : ∀ e, pyClose s e = .ok s := by intro e; simp [pyClose, ha]
    have hdel : ∀ e, pyStep s (.del e) = .ok { s with held := { s.held with ctxFreed := true } } := by
      intro e; simp [pyStep, hclose]
    have hev : pyStep s .event = .ok s := by
      simp only [pyStep, deliver]
      cases h : s.held.obj with
      | fresh r => exact absurd h (ho r)
      | spent => rfl
      | freed => rfl
    cases x with
    | close e => rw [pyRun, show pyStep s (.close e) = .ok s from hclose e]; exact ih s ha ho
    | exit e => rw [pyRun, show pyStep s (.exit e) = .ok s from hclose e]; exact ih s ha ho
    | deinit e => rw [pyRun, show pyStep s (.deinit e) = .ok s from hclose e]; exact ih s ha ho
    | del e => rw [pyRun, hdel e]; exact ih { s with held := { s.held with ctxFreed := true } } ha ho
    | event => rw [pyRun, hev]; exact ih s ha ho

/-- The stop signal can be written whenever somebody closes. -/
def pySignals : PyOp → Bool
  | .close e | .exit e | .deinit e | .del e => !e
  | .event => true

/-- C58, Python: any sequence of closes, exits and finalisations (and events in between) is safe and calls the
C function exactly once if it closes at all. (Stop signal writable; see C75 for the other case.) -/
theorem C58_python (r : Bool) (ops : List PyOp) (hsig : ∀ o ∈ ops, pySignals o) :
    ∃ s, pyRun { attr := some true, held := ⟨.fresh r, false⟩ } ops = .ok s ∧
      s.calls = min (pyCloses ops) 1 ∧ s.raised = false := by
  induction ops with
  | nil => exact ⟨_, rfl, rfl, rfl⟩
  | cons x xs ih =>
    have hx := hsig x (by simp)
    have off := fun (s : PyWatch) (h1 : s.attr = some false) (h2 : ∀ r, s.held.obj ≠ .fresh r) => py_off xs s h1 h2
    have hcl : pyClose { attr := some true, held := ⟨.fresh r, false⟩ } false =
        .ok { attr := some false, held := ⟨if r then .freed else .spent, false⟩, calls := 1 } := by
      cases r <;> rfl
    have hobj : ∀ q, (if r then Obj.freed else Obj.spent) ≠ .fresh q := by cases r <;> simp
    have fin : pyCloses (x :: xs) ≥ 1 → ∀ ctx, ∃ s, pyRun { attr := some false, held := ⟨if r then .freed else .spent, ctx⟩, calls := 1 } xs = .ok s ∧
        s.calls = min (pyCloses (x :: xs)) 1 ∧ s.raised = false := by
      intro hp ctx
      obtain ⟨s', h1, h2, h3⟩ := off { attr := some false, held := ⟨if r then .freed else .spent, ctx⟩, calls := 1 } rfl hobj
      exact ⟨s', h1, by rw [h2]; simp only; omega, h3⟩
    cases x with
    | event =>
      obtain ⟨s, h1, h2, h3⟩ := ih (fun o ho => hsig o (by simp [ho]))
      exact ⟨s, h1, by simpa [pyCloses] using h2, h3⟩
    | close e =>
      cases e with
      | true => simp [pySignals] at hx
      | false => rw [pyRun, show pyStep { attr := some true, held := ⟨.fresh r, false⟩ } (.close false) = _ from hcl]; exact fin (by simp [pyCloses]) _
    | exit e =>
      cases e with
      | true => simp [pySignals] at hx
      | false => rw [pyRun, show pyStep { attr := some true, held := ⟨.fresh r, false⟩ } (.exit false) = _ from hcl]; exact fin (by simp [pyCloses]) _
    | deinit e =>
      cases e with
      | true => simp [pySignals] at hx
      | false => rw [pyRun, show pyStep { attr := some true, held := ⟨.fresh r, false⟩ } (.deinit false) = _ from hcl]; exact fin (by simp [pyCloses]) _
    | del e =>
      cases e with
      | true => simp [pySignals] at hx
      | false =>
        rw [pyRun, show pyStep { attr := some true, held := ⟨.fresh r, false⟩ } (.del false) =
          .ok { attr := some false, held := ⟨if r then .freed else .spent, true⟩, calls := 1 } from by
            simp only [pyStep, hcl]; rfl]
        exact fin (by simp [pyCloses]) _

/-- C58, Python: even when stop signals fail, no sequence of closes calls the C function more than once. -/
theorem C58_python_one_call (r : Bool) (ops : List PyOp) (s : PyWatch)
    (h : pyRun { attr := some true, held := ⟨.fresh r, false⟩ } ops = .ok s) : s.calls ≤ 1 := by
  have gen : ∀ (ops : List PyOp) (s0 s : PyWatch), (s0.attr = some true → s0.calls = 0) → s0.calls ≤ 1 →
      pyRun s0 ops = .ok s → s.calls ≤ 1 := by
    intro ops
    induction ops with
    | nil => intro s0 s _ h1 h; simp only [pyRun, Outcome.ok.injEq] at h; exact h ▸ h1
    | cons x xs ih =>
      intro s0 s ha h1 h
      rw [pyRun] at h
      cases hs : pyStep s0 x with
      | ub w => rw [hs] at h; cases h
      | ok s1 =>
        rw [hs, Outcome.bind_ok] at h
        have hclose : ∀ e s2, pyClose s0 e = .ok s2 → (s2.attr = some true → s2.calls = 0) ∧ s2.calls ≤ 1 := by
          intro e s2 hc
          unfold pyClose at hc
          cases hat : s0.attr with
          | none => rw [hat] at hc; simp only [Outcome.ok.injEq] at hc; subst hc; exact ⟨by simp, h1⟩
          | some v =>
            cases v with
            | false => rw [hat] at hc; simp only [Outcome.ok.injEq] at hc; subst hc; exact ⟨ha, h1⟩
            | true =>
              rw [hat] at hc
              have h0 := ha hat
              cases hcc : cCloseObj e s0.held.obj with
              | ub w => rw [hcc] at hc; cases hc
              | ok p =>
                rw [hcc] at hc
                simp only [Outcome.bind_ok, Outcome.pure_eq, Outcome.ok.injEq] at hc
                subst hc
                simp [h0]
        have hstep : (s1.attr = some true → s1.calls = 0) ∧ s1.calls ≤ 1 := by
          cases x with
          | close e => exact hclose e s1 hs
          | exit e => exact hclose e s1 hs
          | deinit e => exact hclose e s1 hs
          | del e =>
            simp only [pyStep] at hs
            cases hc : pyClose s0 e with
            | ub w => rw [hc] at hs; cases hs
            | ok s2 =>
              rw [hc] at hs
              simp only [Outcome.bind_ok, Outcome.pure_eq, Outcome.ok.injEq] at hs
              subst hs
              exact hclose e s2 hc
          | event =>
            simp only [pyStep] at hs
            cases hc : deliver s0.held with
            | ub w => rw [hc] at hs; cases hs
            | ok h2 =>
              rw [hc] at hs
              simp only [Outcome.bind_ok, Outcome.pure_eq, Outcome.ok.injEq] at hs
              subst hs; exact ⟨ha, h1⟩
        exact ih s1 s hstep.1 hstep.2 h
  exact gen ops _ s (fun _ => rfl) (by simp) h

/-- C58, Python: if the constructor raised before it stored a handle, closing calls nothing (it raises). -/
theorem C58_python_failed_constructor (r e : Bool) :
    pyRun { attr := none, held := ⟨.fresh r, false⟩ } [.close e] =
      .ok { attr := none, held := ⟨.fresh r, false⟩, raised := true } := rfl

private theorem ts_off (ops : List TsOp) : ∀ (s : TsWatch), s.live = false → (∀ r, s.held.obj ≠ .fresh r) →
    ∃ s', tsRun s ops = .ok s' ∧ s'.calls = s.calls ∧
      s'.answers = s.answers ++ List.replicate (ops.filter (· ≠ .event)).length false := by
  induction ops with
  | nil => intro s _ _; exact ⟨s, rfl, rfl, by simp⟩
  | cons x xs ih =>
    intro s hl ho
    cases x with
    | close e =>
      have hs : tsStep s (.close e) = .ok { s with answers := s.answers ++ [false] } := by simp [tsStep, hl]
      obtain ⟨s', h1, h2, h3⟩ := ih { s with answers := s.answers ++ [false] } hl ho
      refine ⟨s', by rw [tsRun, hs]; exact h1, h2, ?_⟩
      rw [h3]; simp [List.replicate_succ]
    | event =>
      have hs : tsStep s .event = .ok s := by
        simp only [tsStep, deliver]
        cases h : s.held.obj with
        | fresh r => exact absurd h (ho r)
        | spent => rfl
        | freed => rfl
      obtain ⟨s', h1, h2, h3⟩ := ih s hl ho
      exact ⟨s', by rw [tsRun, hs]; exact h1, h2, by simpa using h3⟩

/-- C58, TypeScript: any sequence of closes (and events in between) is safe and calls the C function exactly once
if it closes at all; the first close answers what the C function answers, all others false. -/
theorem C58_typescript (r : Bool) (pre post : List TsOp) (hpre : ∀ o ∈ pre, o = .event) :
    ∃ s, tsRun { live := true, held := ⟨.fresh r, false⟩ } (pre ++ .close false :: post) = .ok s ∧ s.calls = 1 ∧
      s.answers = r :: List.replicate (post.filter (· ≠ .event)).length false := by
  have hp : tsRun { live := true, held := ⟨.fresh r, false⟩ } (pre ++ .close false :: post) =
      tsRun { live := true, held := ⟨.fresh r, false⟩ } (.close false :: post) := by
    induction pre with
    | nil => rfl
    | cons x xs ih =>
      have := hpre x (by simp); subst this
      exact ih (fun o ho => hpre o (by simp [ho]))
  have hs : tsStep { live := true, held := ⟨.fresh r, false⟩ } (.close false) =
      .ok { live := false, held := ⟨if r then .freed else .spent, true⟩, calls := 1, answers := [r] } := by
    cases r <;> rfl
  obtain ⟨s', h1, h2, h3⟩ := ts_off post { live := false, held := ⟨if r then .freed else .spent, true⟩, calls := 1, answers := [r] }
    rfl (by cases r <;> simp)
  exact ⟨s', by rw [hp, tsRun, hs]; exact h1, h2, by rw [h3]; rfl⟩

example : ∀ o ∈ [PyOp.event, .close false, .exit false, .event, .del false], pySignals o := by decide
example : (∀ o ∈ [TsOp.event, .event], o = TsOp.event) := by decide

/-! ## C75 -/

/-- The full claim: no binding frees its callback's context while the watcher's thread can still use it. -/
def C75_full : Prop := ∀ (r e : Bool) (n : Nat),
    (∃ s, rsRun ⟨.fresh r, false⟩ (.drop e :: List.replicate n .event) = .ok s) ∧
    (∃ s, pyRun { attr := some true, held := ⟨.fresh r, false⟩ } (.del e :: List.replicate n .event) = .ok s) ∧
    (∃ s, tsRun { live := true, held := ⟨.fresh r, false⟩ } (.close e :: List.replicate n .event) = .ok s)

/-- C75 (partial: the stop signal can be written): whatever the close answers, the thread has ended before the
context is freed, in all three bindings. -/
theorem C75_context_outlives_thread_partial (r : Bool) (n : Nat) :
    (∃ s, rsRun ⟨.fresh r, false⟩ (.drop false :: List.replicate n .event) = .ok s) ∧
    (∃ s, pyRun { attr := some true, held := ⟨.fresh r, false⟩ } (.del false :: List.replicate n .event) = .ok s) ∧
    (∃ s, tsRun { live := true, held := ⟨.fresh r, false⟩ } (.close false :: List.replicate n .event) = .ok s) := by
  refine ⟨?_, ?_, ?_⟩
  · refine (C57_safe_iff_partial r [] (List.replicate n .event) (by simp) ?_).mpr (.inr (by simp))
    intro o ho; exact (List.mem_replicate.mp ho).2
  · obtain ⟨s, h, _⟩ := C58_python r (.del false :: List.replicate n .event) (by
      intro o ho
      rcases List.mem_cons.mp ho with e | e
      · subst e; rfl
      · rw [(List.mem_replicate.mp e).2]; rfl)
    exact ⟨s, h⟩
  · obtain ⟨s, h, _⟩ := C58_typescript r [] (List.replicate n .event) (by simp)
    exact ⟨s, h⟩

/-- C75 is false of the code: all three free the context even when the stop signal could not be written, and the
thread's next event uses it. -/
theorem C75_refuted : ¬ C75_full ∧
    (∃ why, rsRun ⟨.fresh true, false⟩ [.drop true, .event] = .ub why) ∧
    (∃ why, pyRun { attr := some true, held := ⟨.fresh true, false⟩ } [.del true, .event] = .ub why) ∧
    (∃ why, tsRun { live := true, held := ⟨.fresh true, false⟩ } [.close true, .event] = .ub why) := by
  have w : rsRun ⟨.fresh true, false⟩ [.drop true, .event] = .ub "callback on a freed context" := by decide
  refine ⟨fun h => ?_, ⟨_, w⟩, ⟨"callback on a freed context", by decide⟩, ⟨"callback on a freed context", by decide⟩⟩
  obtain ⟨⟨s, hs⟩, _⟩ := h true true 1
  rw [show (RsOp.drop true :: List.replicate 1 .event) = [.drop true, .event] from rfl, w] at hs
  cases hs

/-! ## C71 -/

/-- The full claim: several threads may close one Python watch. -/
def C71_full : Prop := ∀ (r : Bool) (n : Nat) (sched : List Nat),
    ∃ s, pyThreads ⟨true, .fresh r, List.replicate n .test⟩ sched = .ok s

/-- C71 is false of the code: two threads both see the handle before either clears it. -/
theorem C71_refuted : ¬ C71_full ∧
    ∃ why, pyThreads ⟨true, .fresh true, [.test, .test]⟩ [0, 0, 1, 1, 0, 1] = .ub why := by
  have w : pyThreads ⟨true, .fresh true, [.test, .test]⟩ [0, 0, 1, 1, 0, 1] = .ub "close() on a deleted watch" := by decide
  refine ⟨fun h => ?_, _, w⟩
  obtain ⟨s, hs⟩ := h true 2 [0, 0, 1, 1, 0, 1]
  rw [show List.replicate 2 PyPc.test = [.test, .test] from rfl, w] at hs
  cases hs

/-- A schedule under a lock: every thread runs its `close` from beginning to end (four steps) before another
one begins. -/
def locked (threads : List Nat) : List Nat := threads.flatMap (fun i => [i, i, i, i])

/-- C71 (partial: callers hold a lock): any number of threads may close, in any order; the watch is closed once, by the first of them. -/
theorem C71_locked_partial (r : Bool) (n : Nat) (order : List Nat) :
    ∃ s, pyThreads ⟨true, .fresh r, List.replicate n .test⟩ (locked order) = .ok s ∧
      s.obj = if ∃ i ∈ order, i < n then (if r then .freed else .spent) else .fresh r := by
  have off : ∀ (order : List Nat) (s : PyThreads), s.attr = false → (∀ p ∈ s.pcs, p = .test ∨ p = .done) →
      ∃ s', pyThreads s (locked order) = .ok s' ∧ s'.obj = s.obj := by
    intro order
    induction order with
    | nil => intro s _ _; exact ⟨s, rfl, rfl⟩
    | cons i is ih =>
      intro s ha hp
      have idle : ∀ s : PyThreads, (s.pcs[i]? = none ∨ s.pcs[i]? = some .done) → pyThreadStep s i = .ok s := by
        intro s h; unfold pyThreadStep; rcases h with h | h <;> rw [h]
      have run4 : ∀ s : PyThreads, (s.pcs[i]? = none ∨ s.pcs[i]? = some .done) →
          pyThreads s (locked (i :: is)) = pyThreads s (locked is) := by
        intro s h
        have := idle s h
        simp [locked, pyThreads, this]
      cases hi : s.pcs[i]? with
      | none => rw [run4 s (.inl hi)]; exact ih s ha hp
      | some p =>
        have hlt : i < s.pcs.length := by
          rcases Nat.lt_or_ge i s.pcs.length with h | h
          · exact h
          · rw [List.getElem?_eq_none h] at hi; cases hi
        rcases hp p (List.mem_of_getElem? hi) with rfl | rfl
        · have h1 : pyThreadStep s i = .ok { s with pcs := s.pcs.set i .done } := by
            unfold pyThreadStep; rw [hi]; simp [ha]
          have h2 := idle { s with pcs := s.pcs.set i .done } (.inr (by simp [hlt]))
          have hrun : pyThreads s (locked (i :: is)) = pyThreads { s with pcs := s.pcs.set i .done } (locked is) := by
            simp [locked, pyThreads, h1, h2]
          rw [hrun]
          refine ih _ ha ?_
          intro p hp'
          rcases List.mem_or_eq_of_mem_set hp' with h | h
          · exact hp p h
          · exact .inr h
        · rw [run4 s (.inr hi)]; exact ih s ha hp
  have on : ∀ (order : List Nat), ∃ s, pyThreads ⟨true, .fresh r, List.replicate n .test⟩ (locked order) = .ok s ∧
      s.obj = if ∃ i ∈ order, i < n then (if r then .freed else .spent) else .fresh r := by
    intro order
    induction order with
    | nil => exact ⟨_, rfl, by simp⟩
    | cons i is ih =>
      by_cases hi : i < n
      · have hrun : pyThreads ⟨true, .fresh r, List.replicate n .test⟩ (locked (i :: is)) =
            pyThreads ⟨false, if r then .freed else .spent, (List.replicate n .test).set i .done⟩ (locked is) := by
          have e1 : pyThreadStep ⟨true, .fresh r, List.replicate n .test⟩ i =
              .ok ⟨true, .fresh r, (List.replicate n .test).set i .load⟩ := by
            unfold pyThreadStep; simp [hi]
          have e2 : pyThreadStep ⟨true, .fresh r, (List.replicate n .test).set i .load⟩ i =
              .ok ⟨true, .fresh r, (List.replicate n .test).set i (.call true)⟩ := by
            unfold pyThreadStep; simp [hi]
          have e3 : pyThreadStep ⟨true, .fresh r, (List.replicate n .test).set i (.call true)⟩ i =
              .ok ⟨true, if r then .freed else .spent, (List.replicate n .test).set i .clear⟩ := by
            unfold pyThreadStep; cases r <;> simp [hi, cCloseObj, objClose]
          have e4 : pyThreadStep ⟨true, if r then .freed else .spent, (List.replicate n .test).set i .clear⟩ i =
              .ok ⟨false, if r then .freed else .spent, (List.replicate n .test).set i .done⟩ := by
            unfold pyThreadStep; simp [hi]
          simp [locked, pyThreads, e1, e2, e3, e4]
        have hex : (∃ j ∈ i :: is, j < n) := ⟨i, by simp, hi⟩
        rw [hrun]
        simp only [hex, if_true]
        refine off is ⟨false, if r then .freed else .spent, (List.replicate n .test).set i .done⟩ rfl ?_
        intro p hp
        rcases List.mem_or_eq_of_mem_set hp with h | h
        · exact .inl (List.mem_replicate.mp h).2
        · exact .inr h
      · have e : pyThreadStep ⟨true, .fresh r, List.replicate n .test⟩ i = .ok ⟨true, .fresh r, List.replicate n .test⟩ := by
          unfold pyThreadStep
          rw [List.getElem?_eq_none (by simp; omega)]
        have hrun : pyThreads ⟨true, .fresh r, List.replicate n .test⟩ (locked (i :: is)) =
            pyThreads ⟨true, .fresh r, List.replicate n .test⟩ (locked is) := by
          simp [locked, pyThreads, e]
        have hiff : (∃ j ∈ i :: is, j < n) ↔ ∃ j ∈ is, j < n := by
          constructor
          · rintro ⟨j, hj, hlt⟩
            rcases List.mem_cons.mp hj with e | e
            · omega
            · exact ⟨j, e, hlt⟩
          · rintro ⟨j, hj, hlt⟩; exact ⟨j, by simp [hj], hlt⟩
        rw [hrun]; simp only [hiff]; exact ih
  exact on order

/-! ## C59 -/

/-- What happens, without the events themselves. -/
def ticks {α} : List (NodeOp α) → List Tick
  | [] => []
  | .emit _ :: ops => .comes :: ticks ops
  | .turn :: ops => .taken :: ticks ops
  | .close :: ops => .closed :: ticks ops

/-- Events the watcher's thread hands over (it has ended when `close` returns). -/
def handedOver {α} : List (NodeOp α) → List α
  | [] => []
  | .emit a :: ops => a :: handedOver ops
  | .turn :: ops => handedOver ops
  | .close :: _ => []

/-- The full claim: when the JavaScript loop has caught up, the callback was called with every event, in order,
and every copy was freed once. -/
def C59_full : Prop := ∀ (ops : List (NodeOp Nat)), (nodeRun {} ops).queue = [] →
    (nodeRun {} ops).delivered = handedOver ops ∧ (nodeRun {} ops).freed = handedOver ops

private theorem node_closed {α} (ops : List (NodeOp α)) : ∀ s : Node α, s.closed = true →
    (nodeRun s ops).offered = s.offered ∧ (nodeRun s ops).closed = true ∧
    (nodeRun s ops).delivered ++ (nodeRun s ops).queue = s.delivered ++ s.queue ∧
    (nodeRun s ops).late + (nodeRun s ops).queue.length = s.late + s.queue.length := by
  induction ops with
  | nil => intro s h; exact ⟨rfl, h, rfl, rfl⟩
  | cons o os ih =>
    intro s h
    cases o with
    | emit a => have : nodeStep s (.emit a) = s := by simp [nodeStep, h]
                rw [nodeRun, List.foldl_cons, this]; exact ih s h
    | close => rw [nodeRun, List.foldl_cons]; exact ih (nodeStep s .close) rfl
    | turn =>
      rw [nodeRun, List.foldl_cons]
      cases hq : s.queue with
      | nil =>
        have : nodeStep s .turn = s := by simp [nodeStep, hq]
        rw [this]; have := ih s h; rwa [hq] at this
      | cons a q =>
        have hs : nodeStep s .turn = { s with queue := q, delivered := s.delivered ++ [a], freed := s.freed ++ [a], late := s.late + 1 } := by
          simp [nodeStep, hq, h]
        rw [hs]
        obtain ⟨a1, a2, a3, a4⟩ := ih { s with queue := q, delivered := s.delivered ++ [a], freed := s.freed ++ [a], late := s.late + 1 } h
        refine ⟨a1, a2, by rw [nodeRun] at a3; rw [a3]; simp, ?_⟩
        rw [nodeRun] at a4
        rw [a4]; simp; omega

/-- C59, every schedule: nothing is invented, repeated, reordered or freed twice. What JavaScript got, followed by
what waits, is a part of what the watcher handed over, in the same order; exactly the delivered copies are freed;
at most 1024 events wait. -/
theorem C59_no_invention {α} (ops : List (NodeOp α)) :
    ((nodeRun {} ops).delivered ++ (nodeRun {} ops).queue).Sublist (handedOver ops) ∧
    (nodeRun {} ops).freed = (nodeRun {} ops).delivered ∧ (nodeRun {} ops).queue.length ≤ 1024 := by
  have gen : ∀ (ops : List (NodeOp α)) (s : Node α) (before : List α), s.closed = false →
      (s.delivered ++ s.queue).Sublist before → s.freed = s.delivered → s.queue.length ≤ 1024 →
      ((nodeRun s ops).delivered ++ (nodeRun s ops).queue).Sublist (before ++ handedOver ops) ∧
      (nodeRun s ops).freed = (nodeRun s ops).delivered ∧ (nodeRun s ops).queue.length ≤ 1024 := by
    have genc : ∀ (ops : List (NodeOp α)) (s : Node α), s.freed = s.delivered → s.closed = true →
        (nodeRun s ops).freed = (nodeRun s ops).delivered := by
      intro ops
      induction ops with
      | nil => intro s h _; exact h
      | cons o os ih =>
        intro s hf h
        rw [nodeRun, List.foldl_cons]
        cases o with
        | emit a => exact ih _ (by simp [nodeStep, h, hf]) (by simp [nodeStep, h])
        | close => exact ih _ hf rfl
        | turn =>
          refine ih _ ?_ ?_
          · cases hq : s.queue <;> simp [nodeStep, hq, hf]
          · cases hq : s.queue <;> simp [nodeStep, hq, h]
    intro ops
    induction ops with
    | nil => intro s before _ h1 h2 h3; simpa [handedOver, nodeRun] using ⟨h1, h2, h3⟩
    | cons o os ih =>
      intro s before hc h1 h2 h3
      rw [nodeRun, List.foldl_cons]
      cases o with
      | emit a =>
        rw [show handedOver (.emit a :: os) = [a] ++ handedOver os from rfl, ← List.append_assoc]
        by_cases hq : s.queue.length < queueMax
        · have hs : nodeStep s (.emit a) = { s with offered := s.offered ++ [a], queue := s.queue ++ [a] } := by
            simp [nodeStep, hc, hq]
          rw [hs]
          refine ih { s with offered := s.offered ++ [a], queue := s.queue ++ [a] } (before ++ [a]) hc ?_ h2 ?_
          · simp only [← List.append_assoc]
            exact List.Sublist.append h1 (List.Sublist.refl _)
          · simp only [List.length_append, List.length_singleton]; unfold queueMax at hq; omega
        · have hs : nodeStep s (.emit a) = { s with offered := s.offered ++ [a] } := by
            simp [nodeStep, hc, hq]
          rw [hs]
          exact ih { s with offered := s.offered ++ [a] } (before ++ [a]) hc
            (h1.trans (List.sublist_append_left _ _)) h2 h3
      | turn =>
        rw [show handedOver (.turn :: os) = handedOver os from rfl]
        cases hq : s.queue with
        | nil =>
          have : nodeStep s .turn = s := by simp [nodeStep, hq]
          rw [this]; exact ih s before hc h1 h2 h3
        | cons a q =>
          have hs : nodeStep s .turn = { s with queue := q, delivered := s.delivered ++ [a], freed := s.freed ++ [a] } := by
            simp [nodeStep, hq, hc]
          rw [hs]
          refine ih { s with queue := q, delivered := s.delivered ++ [a], freed := s.freed ++ [a] } before hc ?_ (by simp [h2]) ?_
          · rw [hq] at h1; simpa using h1
          · rw [hq] at h3; simp at h3; simp only; omega
      | close =>
        have hs : (nodeStep s .close).closed = true := rfl
        obtain ⟨a1, a2, a3, a4⟩ := node_closed os (nodeStep s .close) hs
        rw [show handedOver (.close :: os) = [] from rfl, List.append_nil]
        refine ⟨?_, genc os (nodeStep s .close) h2 rfl, ?_⟩
        · rw [nodeRun] at a3; rw [a3]; exact h1
        · have : (nodeRun (nodeStep s .close) os).queue.length ≤ s.queue.length := by
            have hlen : ∀ (os : List (NodeOp α)) (t : Node α), t.closed = true → (nodeRun t os).queue.length ≤ t.queue.length := by
              intro os
              induction os with
              | nil => intro t _; exact Nat.le_refl _
              | cons o os ih =>
                intro t ht
                rw [nodeRun, List.foldl_cons]
                cases o with
                | emit a => have e : nodeStep t (.emit a) = t := by simp [nodeStep, ht]
                            rw [e]; exact ih t ht
                | close => exact ih (nodeStep t .close) rfl
                | turn =>
                  refine Nat.le_trans (ih (nodeStep t .turn) ?_) ?_
                  · cases hq : t.queue <;> simp [nodeStep, hq, ht]
                  · cases hq : t.queue <;> simp [nodeStep, hq]
            exact hlen os (nodeStep s .close) rfl
          rw [nodeRun] at this
          omega
  have := gen ops {} [] rfl (by simp) rfl (by simp)
  simpa using this

/-- C59 (partial: JavaScript never falls more than 1024 events behind): every event is delivered or waits, in
order; so once the queue is empty, every event was delivered and its copy freed. -/
theorem C59_nothing_lost_partial {α} (ops : List (NodeOp α))
    (h : ∀ pre, pre <+: ticks ops → waiting 0 pre ≤ 1024) :
    (nodeRun {} ops).delivered ++ (nodeRun {} ops).queue = handedOver ops ∧
    ((nodeRun {} ops).queue = [] → (nodeRun {} ops).delivered = handedOver ops ∧ (nodeRun {} ops).freed = handedOver ops) := by
  have gen : ∀ (ops : List (NodeOp α)) (s : Node α), s.closed = false →
      (∀ pre, pre <+: ticks ops → waiting s.queue.length pre ≤ 1024) →
      (nodeRun s ops).delivered ++ (nodeRun s ops).queue = s.delivered ++ s.queue ++ handedOver ops := by
    intro ops
    induction ops with
    | nil => intro s _ _; simp [nodeRun, handedOver]
    | cons o os ih =>
      intro s hc hw
      rw [nodeRun, List.foldl_cons]
      cases o with
      | emit a =>
        have hlt : s.queue.length < queueMax := by
          have := hw [.comes] ⟨ticks os, rfl⟩
          simp only [waiting] at this
          unfold queueMax; omega
        have hs : nodeStep s (.emit a) = { s with offered := s.offered ++ [a], queue := s.queue ++ [a] } := by
          simp [nodeStep, hc, hlt]
        rw [hs]
        have := ih { s with offered := s.offered ++ [a], queue := s.queue ++ [a] } hc (by
          rintro pre ⟨t, ht⟩
          have := hw (.comes :: pre) ⟨t, by simp [ticks, ← ht]⟩
          simpa [waiting] using this)
        rw [nodeRun] at this
        rw [this]; simp [handedOver]
      | turn =>
        have hw' : ∀ pre, pre <+: ticks os → waiting (s.queue.length - 1) pre ≤ 1024 := by
          rintro pre ⟨t, ht⟩
          have := hw (.taken :: pre) ⟨t, by simp [ticks, ← ht]⟩
          simpa [waiting] using this
        cases hq : s.queue with
        | nil =>
          have e : nodeStep s .turn = s := by simp [nodeStep, hq]
          have := ih s hc (by simpa [hq] using hw')
          rw [e]; rw [nodeRun] at this; rw [this, hq]; rfl
        | cons a q =>
          have hs : nodeStep s .turn = { s with queue := q, delivered := s.delivered ++ [a], freed := s.freed ++ [a] } := by
            simp [nodeStep, hq, hc]
          have := ih { s with queue := q, delivered := s.delivered ++ [a], freed := s.freed ++ [a] } hc (by simpa [hq] using hw')
          rw [hs]; rw [nodeRun] at this; rw [this]
          simp [handedOver]
      | close =>
        obtain ⟨_, _, a3, _⟩ := node_closed os (nodeStep s .close) rfl
        rw [nodeRun] at a3
        rw [a3]; simp [handedOver, nodeStep]
  have h1 := gen ops {} rfl h
  simp only [List.nil_append] at h1
  refine ⟨h1, fun hq => ?_⟩
  rw [hq, List.append_nil] at h1
  exact ⟨h1, by rw [(C59_no_invention ops).2.1, h1]⟩

example : (∀ pre, pre <+: ticks [NodeOp.emit 1, .emit 2, .turn, .emit 3, .close, .turn, .turn] → waiting 0 pre ≤ 1024) ∧
    (nodeRun {} [NodeOp.emit 1, .emit 2, .turn, .emit 3, .close, .turn, .turn]).delivered = [1, 2, 3] := by
  refine ⟨?_, by decide⟩
  intro pre hp
  rw [List.prefix_iff_eq_take.mp hp]
  have : ∀ k ≤ 7, waiting 0 ((ticks [NodeOp.emit 1, .emit 2, .turn, .emit 3, .close, .turn, .turn]).take k) ≤ 1024 := by
    decide
  exact this _ hp.length_le

/-- A burst of `n` events while JavaScript is busy. -/
private theorem burst (n : Nat) : ∀ (s : Node Nat), s.closed = false → s.queue.length ≤ 1024 →
    (nodeRun s (List.replicate n (.emit 7))).queue.length = min (s.queue.length + n) 1024 ∧
    (nodeRun s (List.replicate n (.emit 7))).delivered = s.delivered ∧
    (nodeRun s (List.replicate n (.emit 7))).closed = false := by
  induction n with
  | zero => intro s h hq; exact ⟨by simp [nodeRun]; omega, rfl, h⟩
  | succ n ih =>
    intro s h hq
    rw [List.replicate_succ, nodeRun, List.foldl_cons]
    by_cases hl : s.queue.length < queueMax
    · have hs : nodeStep s (.emit 7) = { s with offered := s.offered ++ [7], queue := s.queue ++ [7] } := by simp [nodeStep, h, hl]
      rw [hs]
      unfold queueMax at hl
      obtain ⟨a, b, c⟩ := ih { s with offered := s.offered ++ [7], queue := s.queue ++ [7] } h (by simp; omega)
      rw [nodeRun] at a b c
      exact ⟨by rw [a]; simp; omega, b, c⟩
    · have hs : nodeStep s (.emit 7) = { s with offered := s.offered ++ [7] } := by simp [nodeStep, h, hl]
      rw [hs]
      unfold queueMax at hl
      obtain ⟨a, b, c⟩ := ih { s with offered := s.offered ++ [7] } h (by simpa using hq)
      rw [nodeRun] at a b c
      exact ⟨by rw [a]; simp; omega, b, c⟩

/-- The JavaScript loop works off its queue. -/
private theorem drain (n : Nat) : ∀ (s : Node Nat), s.queue.length = n →
    (nodeRun s (List.replicate n .turn)).queue = [] ∧
    (nodeRun s (List.replicate n .turn)).delivered = s.delivered ++ s.queue := by
  induction n with
  | zero => intro s h; exact ⟨List.length_eq_zero_iff.mp h, by simp [nodeRun, List.length_eq_zero_iff.mp h]⟩
  | succ n ih =>
    intro s h
    rw [List.replicate_succ, nodeRun, List.foldl_cons]
    cases hq : s.queue with
    | nil => rw [hq] at h; cases h
    | cons a q =>
      have hlen : (nodeStep s .turn).queue.length = n := by simp [nodeStep, hq]; rw [hq] at h; simpa using h
      obtain ⟨h1, h2⟩ := ih (nodeStep s .turn) hlen
      rw [nodeRun] at h1 h2
      exact ⟨h1, by rw [h2]; simp [nodeStep, hq]⟩

/-- C59: how many are lost. A burst of `n` events while JavaScript is busy, then JavaScript catches up: all beyond
the first 1024 are lost, and their copies are never freed. -/
theorem C59_burst_loses (n : Nat) :
    (nodeRun {} (List.replicate n (NodeOp.emit 7) ++ List.replicate (min n 1024) .turn)).queue = [] ∧
    (nodeRun {} (List.replicate n (NodeOp.emit 7) ++ List.replicate (min n 1024) .turn)).delivered.length = min n 1024 ∧
    (nodeRun {} (List.replicate n (NodeOp.emit 7) ++ List.replicate (min n 1024) .turn)).freed.length = min n 1024 := by
  obtain ⟨a, b, _⟩ := burst n {} rfl (by simp)
  simp only [List.length_nil, Nat.zero_add] at a
  have happ : nodeRun {} (List.replicate n (NodeOp.emit 7) ++ List.replicate (min n 1024) .turn) =
      nodeRun (nodeRun {} (List.replicate n (NodeOp.emit 7))) (List.replicate (min n 1024) .turn) := by
    simp [nodeRun]
  obtain ⟨c, d⟩ := drain (min n 1024) (nodeRun {} (List.replicate n (NodeOp.emit 7))) a
  have hf := (C59_no_invention (List.replicate n (NodeOp.emit 7) ++ List.replicate (min n 1024) .turn)).2.1
  rw [hf, happ]
  refine ⟨c, ?_, ?_⟩ <;> (rw [d, b]; simpa using a)

/-- C59 is false of the code: the 1025th event of a burst is lost. -/
theorem C59_refuted : ¬ C59_full := by
  intro h
  obtain ⟨a, b, _⟩ := C59_burst_loses 1025
  have := (h _ a).1
  have hl := congrArg List.length this
  rw [b] at hl
  have hh : ∀ n (l : List (NodeOp Nat)), handedOver (List.replicate n (NodeOp.emit 7) ++ l) = List.replicate n 7 ++ handedOver l := by
    intro n l
    induction n with
    | zero => rfl
    | succ n ih => simp only [List.replicate_succ, List.cons_append, handedOver]; rw [ih]
  rw [hh, List.length_append, List.length_replicate] at hl
  omega

/-! ## C76 -/

/-- The full claim: no callback after `close()` has returned. -/
def C76_full : Prop := ∀ (ops : List (NodeOp Nat)), (nodeRun {} ops).late = 0

/-- C76 is false of the code: an event waiting when JavaScript closes is delivered afterwards. -/
theorem C76_refuted : ¬ C76_full := fun h => absurd (h [.emit 1, .close, .turn]) (by decide)

/-- C76 (partial): the callbacks after `close()` are those of events that waited then - at most 1024, none of them
new - and when they have been made there are no more. -/
theorem C76_only_waiting_partial {α} (before after : List (NodeOp α)) (h : NodeOp.close ∉ before) :
    (nodeRun {} (before ++ .close :: after)).late + (nodeRun {} (before ++ .close :: after)).queue.length =
      (nodeRun {} before).queue.length ∧
    (nodeRun {} (before ++ .close :: after)).late ≤ 1024 ∧
    (nodeRun {} (before ++ .close :: after)).delivered ++ (nodeRun {} (before ++ .close :: after)).queue =
      (nodeRun {} before).delivered ++ (nodeRun {} before).queue := by
  have hlate : ∀ (ops : List (NodeOp α)) (s : Node α), s.closed = false → NodeOp.close ∉ ops → s.late = 0 →
      (nodeRun s ops).late = 0 := by
    intro ops
    induction ops with
    | nil => intro s _ _ h; exact h
    | cons o os ih =>
      intro s hc hn hl
      have hn' : NodeOp.close ∉ os := fun hm => hn (by simp [hm])
      rw [nodeRun, List.foldl_cons]
      cases o with
      | close => simp at hn
      | emit a =>
        refine ih _ ?_ hn' ?_ <;>
          (by_cases hq : s.queue.length < queueMax <;> simp [nodeStep, hq, hc, hl])
      | turn =>
        refine ih _ ?_ hn' ?_ <;> (cases hq : s.queue <;> simp [nodeStep, hq, hc, hl])
  have happ : nodeRun {} (before ++ .close :: after) = nodeRun (nodeStep (nodeRun {} before) .close) after := by
    simp [nodeRun]
  obtain ⟨_, _, a3, a4⟩ := node_closed after (nodeStep (nodeRun {} before) .close) rfl
  have h0 := hlate before {} rfl h rfl
  have h4 : (nodeStep (nodeRun {} before) .close).late + (nodeStep (nodeRun {} before) .close).queue.length =
      (nodeRun {} before).queue.length := by simp [nodeStep, h0]
  rw [happ, a4, h4]
  have := (C59_no_invention before).2.2
  exact ⟨rfl, by omega, a3⟩

example : NodeOp.close ∉ [NodeOp.emit 1, .emit 2, .turn] ∧
    (nodeRun {} [NodeOp.emit 1, .emit 2, .turn, .close, .turn]).late = 1 := by decide

/-! ## C60 -/

/-- The full claim. -/
def C60_full : Prop := ∀ n : Int, Is64 n → toDouble n = n

/-- C60: a time of our days is not exact. -/
theorem C60_refuted : ¬ C60_full ∧ toDouble 1704067200000000001 = 1704067200000000000 := by
  have w : toDouble 1704067200000000001 = 1704067200000000000 := by decide +kernel
  refine ⟨fun h => ?_, w⟩
  have := h 1704067200000000001 (by unfold Is64; omega)
  rw [w] at this; omega

/-- C60 (partial): the JavaScript time is a double, no double is nearer, and it is the exact time exactly when that
has at most 53 significant bits - in particular up to 2^53 (104 days). -/
theorem C60_nearest_partial (n : Int) :
    IsDouble (toDouble n) ∧ (∀ d, IsDouble d → (n - toDouble n).natAbs ≤ (n - d).natAbs) ∧
    (toDouble n = n ↔ IsDouble n) ∧ (n.natAbs ≤ 2 ^ 53 → toDouble n = n) := by
  refine ⟨toDouble_isDouble n, toDouble_nearest n, ⟨fun h => h ▸ toDouble_isDouble n, toDouble_exact n⟩, fun h => ?_⟩
  exact toDouble_exact n ⟨n.natAbs, 0, h, by simp⟩

/-- C60 (partial): the error is at most 128 ns from 2006 to 2043 (2^60 to 2^61 ns), at most 512 ns for all 64-bit
times. -/
theorem C60_error_partial (n : Int) (h : Is64 n) :
    (n - toDouble n).natAbs ≤ 512 ∧ (n < 2 ^ 61 → 0 ≤ n → (n - toDouble n).natAbs ≤ 128) := by
  unfold Is64 at h
  constructor
  · by_cases hm : n.natAbs < 2 ^ (53 + 10)
    · have := toDouble_error n 10 hm; omega
    · have hn : n = -9223372036854775808 := by
        have : (2 : Nat) ^ (53 + 10) = 9223372036854775808 := by decide
        omega
      have : toDouble n = n := toDouble_exact n ⟨1, 63, by decide, by rw [hn]; decide⟩
      omega
  · intro h1 h2
    have := toDouble_error n 8 (by
      have e1 : (2 : Nat) ^ (53 + 8) = 2305843009213693952 := by decide
      have e2 : (2 : Int) ^ 61 = 2305843009213693952 := by decide
      omega)
    omega

/-- C60 (partial): the order of times is kept. -/
theorem C60_order_partial (m n : Int) (h : m ≤ n) : toDouble m ≤ toDouble n := toDouble_mono m n h

example : Is64 1704067200000000001 ∧ (1704067200000000001 : Int) < 2 ^ 61 := by unfold Is64; decide
example : toDouble 1704067200000000129 = 1704067200000000256 ∧ toDouble (-9007199254740993) = -9007199254740992 := by decide +kernel

/-! ## C72 -/

/-- The full claim: each binding watches the path it is given. -/
def C72_full : Prop := ∀ s : Str, utf8 s → cOpenPath s = s ∧ pyOpenPath s = s ∧ rsOpenPath s = some s ∧ nodeOpenPath s = s

private theorem cutChars_short (s : Str) (n : Nat) (h : s.length ≤ n) : cutChars s n = s := by
  cases n with
  | zero => rw [cutChars]; exact (List.length_eq_zero_iff.mp (by omega)).symm
  | succ n => rw [cutChars, if_pos h]

private theorem cutChars_spec (s : Str) (n : Nat) : cutChars s n <+: s ∧ (cutChars s n).length ≤ n := by
  induction n with
  | zero => exact ⟨List.nil_prefix, by simp [cutChars]⟩
  | succ n ih =>
    rw [cutChars]
    split
    · rename_i h; exact ⟨List.prefix_refl _, h⟩
    · rename_i h
      cases hc : s[n + 1]? with
      | none => rw [List.getElem?_eq_none_iff] at hc; omega
      | some c =>
        simp only
        split
        · exact ⟨ih.1, by omega⟩
        · exact ⟨List.take_prefix _ _, by simp; omega⟩

theorem cutChars_prefix (s : Str) (n : Nat) : cutChars s n <+: s := (cutChars_spec s n).1
theorem cutChars_length (s : Str) (n : Nat) : (cutChars s n).length ≤ n := (cutChars_spec s n).2

/-- C72 (partial, exactly when it holds): C and Python watch the given path iff it contains no zero byte, Rust too
(and it panics otherwise, it never watches anything else); Node.js iff it also has at most 4095 bytes. What is
watched instead is a beginning of the path. -/
theorem C72_exact_partial (s : Str) :
    (cOpenPath s = s ↔ NoNul s) ∧ (pyOpenPath s = s ↔ NoNul s) ∧
    (rsOpenPath s = some s ↔ NoNul s) ∧ (rsOpenPath s = none ↔ ¬ NoNul s) ∧
    (nodeOpenPath s = s ↔ NoNul s ∧ s.length ≤ 4095) ∧
    cOpenPath s <+: s ∧ pyOpenPath s <+: s ∧ nodeOpenPath s <+: s := by
  have hpre : nodeOpenPath s <+: s := (cRead_prefix _).trans (cutChars_spec s 4095).1
  have hcont : s.contains 0 = true ↔ ¬ NoNul s := by
    unfold NoNul; simp
  refine ⟨cRead_iff s, cRead_iff s, ?_, ?_, ?_, cRead_prefix s, cRead_prefix s, hpre⟩
  · unfold rsOpenPath
    split
    · rename_i h; have := hcont.mp h; simp [this]
    · rename_i h
      have : NoNul s := Classical.byContradiction (fun hn => h (hcont.mpr hn))
      simp [this, cOpenPath, cRead_eq this]
  · unfold rsOpenPath
    split
    · rename_i h; have := hcont.mp h; simp [this]
    · rename_i h; simp; exact Classical.byContradiction (fun hn => h (hcont.mpr hn))
  · constructor
    · intro h
      have hn : NoNul s := h ▸ cRead_noNul _
      refine ⟨hn, ?_⟩
      have h1 : (nodeOpenPath s).length ≤ (cutChars s 4095).length := (cRead_prefix _).length_le
      have h2 := (cutChars_spec s 4095).2
      rw [h] at h1; omega
    · rintro ⟨h1, h2⟩
      rw [nodeOpenPath, cutChars_short s 4095 h2]; exact cRead_eq h1

/-- C72 is false of the code. -/
theorem C72_refuted : ¬ C72_full ∧ cOpenPath (b!"/a" ++ [0] ++ b!"/b") = b!"/a" := by
  refine ⟨fun h => ?_, by decide⟩
  have := (h (b!"/a" ++ [0] ++ b!"/b") (by decide +kernel)).1
  exact absurd this (by decide)

example : NoNul b!"/home/ünal/x" ∧ (b!"/home/ünal/x").length ≤ 4095 := by decide

/-! ## C73 -/

/-- The full claim: on Windows, every event reaches the C callback with its paths. -/
def C73_full : Prop := ∀ ev : Event, NoNul ev.path → (∀ a, ev.assoc = some a → NoNul a.path) →
    cViewWin ev = .ok (some (cView ev))

/-- C73 (partial, exactly when it holds): the C callback gets the event iff both encoded paths have fewer than 4095
bytes. With exactly 4095 the end mark is written behind the buffer; with more the event is dropped. -/
theorem C73_exact_partial (ev : Event) :
    (ev.path.length < 4095 → (∀ a, ev.assoc = some a → a.path.length < 4095) → cViewWin ev = .ok (some (cView ev))) ∧
    (ev.path.length = 4095 → ∃ why, cViewWin ev = .ub why) ∧
    (4095 < ev.path.length → cViewWin ev = .ok none) ∧
    (∀ a, ev.assoc = some a → ev.path.length < 4095 → a.path.length = 4095 → ∃ why, cViewWin ev = .ub why) ∧
    (∀ a, ev.assoc = some a → ev.path.length < 4095 → 4095 < a.path.length → cViewWin ev = .ok none) := by
  have short : ∀ s : Str, s.length < 4095 → utf16ToUtf8 pathBufLen s = .ok (some s) := by
    intro s h; unfold utf16ToUtf8 pathBufLen
    simp only [show s.length + 1 ≤ 4096 by omega, if_true]
    rw [if_neg (by omega), if_pos (by omega)]
  have exact_ : ∀ s : Str, s.length = 4095 → utf16ToUtf8 pathBufLen s = .ub "utf8_buf[wrote] lies behind the buffer" := by
    intro s h; unfold utf16ToUtf8 pathBufLen; simp [h]
  have long : ∀ s : Str, 4095 < s.length → utf16ToUtf8 pathBufLen s = .ok none := by
    intro s h; unfold utf16ToUtf8 pathBufLen
    simp only [show ¬ s.length + 1 ≤ 4096 by omega, if_false]; rfl
  refine ⟨fun h1 h2 => ?_, fun h => ?_, fun h => ?_, fun a ha h1 h2 => ?_, fun a ha h1 h2 => ?_⟩
  · rw [cViewWin, short _ h1, Outcome.bind_ok]
    cases ha : ev.assoc with
    | none => simp [cView, ha]
    | some a => simp only [short _ (h2 a ha), Outcome.bind_ok]; simp [cView, ha]
  · exact ⟨_, by rw [cViewWin, exact_ _ h]; rfl⟩
  · rw [cViewWin, long _ h]; rfl
  · refine ⟨"utf8_buf[wrote] lies behind the buffer", ?_⟩
    rw [cViewWin, short _ h1, Outcome.bind_ok]
    simp only [ha, exact_ _ h2]; rfl
  · rw [cViewWin, short _ h1, Outcome.bind_ok]
    simp only [ha, long _ h2]; rfl

/-- C73 is false of the code: an encoded path of 4095 bytes. -/
theorem C73_refuted : ¬ C73_full ∧ ∃ ev : Event, ev.path.length = 4095 ∧ ∃ why, cViewWin ev = .ub why := by
  have hl : (List.replicate 4095 (97 : UInt8)).length = 4095 := List.length_replicate
  have hu := (C73_exact_partial (.mk (List.replicate 4095 97) .create .file 0 none)).2.1 hl
  refine ⟨fun h => ?_, .mk (List.replicate 4095 97) .create .file 0 none, hl, hu⟩
  obtain ⟨why, hw⟩ := hu
  have := h (.mk (List.replicate 4095 97) .create .file 0 none)
    (by intro hm; exact absurd (List.mem_replicate.mp hm).2 (by decide)) (by simp [Event.assoc])
  rw [hw] at this; cases this

example : (Event.mk b!"C:\\tmp\\a" .rename .file 5 (some (.mk b!"C:\\tmp\\b" .rename .file 5 none))).path.length < 4095 := by
  decide

/-! ## C74 -/

/-- The document `to_json` should print. -/
def pyDoc (ev : PyEvent) : Json :=
  .obj [(b!"effect_time", .num ev.time), (b!"path_name", .str ev.path),
    (b!"associated_path_name", match ev.assoc with | none => .null | some a => .str a),
    (b!"effect_type", .str ev.effect), (b!"path_type", .str ev.ptype)]

/-- The full claim: `to_json` is JSON for the event, for every event Python delivers. -/
def C74_full : Prop := ∀ (c : CEvent) (ev : PyEvent), Is64 c.time → pyEvent utf8 c = some ev →
    Json.parse (pyJson ev) = some (pyDoc ev)

theorem py_types {c : CEvent} {ev : PyEvent} (h : pyEvent utf8 c = some ev) :
    ev.time = c.time ∧ PlainText ev.effect ∧ PlainText ev.ptype ∧ ev.assoc ≠ some [] := by
  have plain : ∀ (l : List Str), (∀ s ∈ l, PlainText s) → ∀ (c : Int) (s : Str), byCode l c = some s → PlainText s := by
    intro l hl c s hs
    unfold byCode at hs
    split at hs
    · cases hs
    · exact hl s (List.mem_of_getElem? hs)
  unfold pyEvent at h
  cases h1 : pyDecode utf8 c.path with
  | none => rw [h1] at h; cases h
  | some p =>
    cases h2 : pyAssoc utf8 c.assoc with
    | none => rw [h1, h2] at h; cases h
    | some a =>
      cases h3 : byCode pyEffects c.effect with
      | none => rw [h1, h2, h3] at h; cases h
      | some e =>
        cases h4 : byCode pyPaths c.ptype with
        | none => rw [h1, h2, h3, h4] at h; cases h
        | some t =>
          rw [h1, h2, h3, h4] at h
          injection h with h
          subst h
          refine ⟨rfl, plain _ (by decide) _ _ h3, plain _ (by decide) _ _ h4, ?_⟩
          rintro rfl
          cases hc : c.assoc with
          | none => rw [hc] at h2; cases h2
          | some s =>
            rw [hc] at h2
            simp only [pyAssoc] at h2
            cases hd : pyDecode utf8 s with
            | none => rw [hd] at h2; cases h2
            | some t =>
              rw [hd] at h2
              simp only [Option.map_some, Option.some.injEq] at h2
              split at h2
              · cases h2
              · rename_i hne; injection h2 with h2; exact hne h2

/-- C74 (partial: no `"`, `\` or control character in the names): `to_json` is one JSON document with exactly the
event's contents, for every time. -/
theorem C74_json_partial (c : CEvent) (ev : PyEvent) (h64 : Is64 c.time) (h : pyEvent utf8 c = some ev)
    (hp : PlainText ev.path) (ha : ∀ a, ev.assoc = some a → PlainText a) :
    Json.parse (pyJson ev) = some (pyDoc ev) := by
  obtain ⟨ht, he, hpt, hne⟩ := py_types h
  have hd := toChars_decimal c.time h64
  have hlen : 20 ≤ (pyJson ev).length := by
    simp only [pyJson, List.length_append, List.length_cons, List.length_nil]; omega
  obtain ⟨f, hf⟩ : ∃ f, (pyJson ev).length = f + 8 := ⟨(pyJson ev).length - 8, by omega⟩
  have key : Json.value (f + 9) (pyJson ev) = some (pyDoc ev, []) := by
    cases hassoc : ev.assoc with
    | none =>
      have htext : pyJson ev = 123 :: 34 :: (b!"effect_time" ++ 34 :: 58 :: (toChars c.time ++ 44 ::
          34 :: (b!"path_name" ++ 34 :: 58 :: 34 :: (ev.path ++ 34 :: 44 ::
          34 :: (b!"associated_path_name" ++ 34 :: 58 :: (b!"null" ++ 44 ::
          34 :: (b!"effect_type" ++ 34 :: 58 :: 34 :: (ev.effect ++ 34 :: 44 ::
          34 :: (b!"path_type" ++ 34 :: 58 :: 34 :: (ev.ptype ++ 34 :: 125 :: [])))))))))) := by
        simp [pyJson, hassoc, ht]
      rw [htext]
      refine (value_obj (f + 8) _ [] _ ?_).trans (by rw [pyDoc, hassoc, ht])
      refine members_more (f + 7) b!"effect_time" (by decide) _ _ _ _ _
        (value_num (f + 6) _ c.time _ hd (by intro x hx; simp at hx; subst hx; decide)) ?_
      refine members_more (f + 6) b!"path_name" (by decide) _ _ _ _ _ (value_str (f + 5) _ _ hp) ?_
      refine members_more (f + 5) b!"associated_path_name" (by decide) _ _ _ _ _ rfl ?_
      refine members_more (f + 4) b!"effect_type" (by decide) _ _ _ _ _ (value_str (f + 3) _ _ he) ?_
      exact members_last (f + 3) b!"path_type" (by decide) _ _ _ (value_str (f + 2) _ _ hpt)
    | some a =>
      have hane : a ≠ [] := fun e => hne (by rw [hassoc, e])
      have htext : pyJson ev = 123 :: 34 :: (b!"effect_time" ++ 34 :: 58 :: (toChars c.time ++ 44 ::
          34 :: (b!"path_name" ++ 34 :: 58 :: 34 :: (ev.path ++ 34 :: 44 ::
          34 :: (b!"associated_path_name" ++ 34 :: 58 :: 34 :: (a ++ 34 :: 44 ::
          34 :: (b!"effect_type" ++ 34 :: 58 :: 34 :: (ev.effect ++ 34 :: 44 ::
          34 :: (b!"path_type" ++ 34 :: 58 :: 34 :: (ev.ptype ++ 34 :: 125 :: [])))))))))) := by
        simp [pyJson, hassoc, ht, hane]
      rw [htext]
      refine (value_obj (f + 8) _ [] _ ?_).trans (by rw [pyDoc, hassoc, ht])
      refine members_more (f + 7) b!"effect_time" (by decide) _ _ _ _ _
        (value_num (f + 6) _ c.time _ hd (by intro x hx; simp at hx; subst hx; decide)) ?_
      refine members_more (f + 6) b!"path_name" (by decide) _ _ _ _ _ (value_str (f + 5) _ _ hp) ?_
      refine members_more (f + 5) b!"associated_path_name" (by decide) _ _ _ _ _ (value_str (f + 4) _ _ (ha a hassoc)) ?_
      refine members_more (f + 4) b!"effect_type" (by decide) _ _ _ _ _ (value_str (f + 3) _ _ he) ?_
      exact members_last (f + 3) b!"path_type" (by decide) _ _ _ (value_str (f + 2) _ _ hpt)
  rw [Json.parse, hf, key]

example : pyEvent utf8 ⟨5, b!"/a", some b!"/b", 0, 1⟩ = some ⟨5, b!"/a", some b!"/b", b!"rename", b!"file"⟩ := by
  decide +kernel

set_option maxRecDepth 20000 in
/-- C74 is false of the code: a quotation mark in a name breaks the document, and a crafted name can add members. -/
theorem C74_refuted : ¬ C74_full ∧
    Json.parse (pyJson ⟨5, b!"/a\"b", none, b!"create", b!"file"⟩) = none ∧
    (∃ ms, Json.parse (pyJson ⟨5, b!"/a\",\"path_name\":\"/etc/passwd", none, b!"create", b!"file"⟩) = some (.obj ms) ∧
      ms.length = 6) := by
  have h1 : Json.parse (pyJson ⟨5, b!"/a\"b", none, b!"create", b!"file"⟩) = none := by decide +kernel
  refine ⟨fun h => ?_, h1, ?_⟩
  · have := h ⟨5, b!"/a\"b", none, 2, 1⟩ _ (by unfold Is64; decide)
      (show _ = some (⟨5, b!"/a\"b", none, b!"create", b!"file"⟩ : PyEvent) by decide +kernel)
    rw [h1] at this; cases this
  · exact ⟨[(b!"effect_time", .num 5), (b!"path_name", .str b!"/a"), (b!"path_name", .str b!"/etc/passwd"),
      (b!"associated_path_name", .null), (b!"effect_type", .str b!"create"), (b!"path_type", .str b!"file")], by rfl, rfl⟩

end Verif.Props
