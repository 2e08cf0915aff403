import Verif.Lemmas.Warthog
/-!
# Properties of the portable scanner (C52 - C54, C69, C70)
-/

namespace Verif.Props
open Verif Verif.Model Verif.Model.Warthog Verif.Spec.Warthog Verif.Lemmas.Warthog

/-! Trees for the examples. -/
private def wf (p : Str) (t : Time) : Entry := ⟨p, true, some t⟩
private def tree0 : CalmDir := ⟨[], by decide, by decide⟩
private def tree1 : CalmDir := ⟨[⟨b!"/d", false, some 3⟩, wf b!"/d/a" 1, wf b!"/b" 2], by decide, by decide⟩
private def tree2 : CalmDir := ⟨[⟨b!"/d", false, some 3⟩, wf b!"/d/a" 4, wf b!"/b" 2, wf b!"/c" 5], by decide, by decide⟩
private def tree3 : CalmDir := ⟨[wf b!"/b" 2], by decide, by decide⟩
private def all : Str → Bool := fun _ => true

/-! ## C52 -/

/-- C52. Whatever happened before: while the tree stays the same, nothing is reported after the first pass,
for any number of passes. -/
theorem C52_quiet_tree (hist : List (World × World)) (exist : Str → Bool) (d : CalmDir) (n : Nat) :
    (watch (hist ++ quietPasses exist (List.replicate (n + 1) d))).out = (watch (hist ++ quietPasses exist [d])).out := by
  have split : ∀ k, quietPasses exist (List.replicate (k + 1) d) = quietPasses exist [d] ++ quietPasses exist (List.replicate k d) := by
    intro k; simp [quietPasses, passes, List.replicate_succ]
  unfold watch
  rw [split, ← List.append_assoc, List.foldl_append]
  generalize hs : List.foldl (fun s (p : World × World) => pass s p.1 p.2) (.going [] []) (hist ++ quietPasses exist [d]) = s
  cases s with
  | going b out =>
    have hu : UpToDate d b := by
      rw [List.foldl_append] at hs
      generalize List.foldl (fun s (p : World × World) => pass s p.1 p.2) (.going [] []) hist = s0 at hs
      cases s0 with
      | going b0 out0 =>
        obtain ⟨b1, b2, evs, h1, h2, h3⟩ := pass_calm exist d d b0 out0
        simp only [quietPasses, passes, List.map_cons, List.map_nil, List.foldl_cons, List.foldl_nil] at hs
        rw [h3] at hs
        injection hs with hs _
        subst hs
        exact scan_upToDate exist d b1 b2 evs h2
      | ended o => simp [quietPasses, passes, pass] at hs
      | terminated o => simp [quietPasses, passes, pass] at hs
      | undefined o => simp [quietPasses, passes, pass] at hs
    exact quiet_run exist d n b out hu
  | ended o => rw [stuck_run _ _ (fun _ _ => rfl)]
  | terminated o => rw [stuck_run _ _ (fun _ _ => rfl)]
  | undefined o => rw [stuck_run _ _ (fun _ _ => rfl)]

/-- C52, from the beginning: a tree that never changes is never reported at all. -/
theorem C52_quiet_from_start (exist : Str → Bool) (d : CalmDir) (n : Nat) :
    (watch (quietPasses exist (List.replicate n d))).out = [] := by
  cases n with
  | zero => rfl
  | succ n =>
    obtain ⟨b1, h1, _, _, h4⟩ := tend_calm d exist []
    have hu : UpToDate d b1 := by
      intro p t hd
      obtain ⟨e, he, hp, _, ht⟩ := fileTime_some hd
      rw [← hp, (h4 rfl).1 e he, ht]
    obtain ⟨b2, h2, h3⟩ := scan_quiet exist d b1 hu
    have hp : pass (.going [] []) (d.world exist) (d.world exist) = .going b2 [] := by
      simp only [pass, h1, h2, List.append_nil]
    unfold watch
    simp only [quietPasses, passes, List.replicate_succ, List.map_cons, List.foldl_cons, hp]
    exact quiet_run exist d n b2 [] h3

example : (watch (quietPasses all [tree1, tree1, tree1])).out = [] := by decide +kernel
example : (watch (quietPasses all [tree1, tree2, tree2])).out.length = 2 := by decide +kernel

/-! ## C53 -/

/-- C53, the full claim: a file that appears is reported as created, and one whose write time is another than
when it was seen last as modified, each once. -/
def C53_full : Prop := ∀ (exist : Str → Bool) (d : CalmDir) (ds : List CalmDir) (p : Str),
  about p (watch (quietPasses exist (d :: ds))).out = told (d.fileTime p) (seenTimes p ds)

/-- The full claim does not hold of the code: files that appear in a tree in which there was nothing are
swallowed. -/
theorem C53_full_refuted : ¬ C53_full := by
  intro h
  have := h all tree0 [tree3] b!"/b"
  exact absurd this (by decide +kernel)

/-- C53 (partial: the first tree must not be empty, and the path not something else than a file in it). For all
series of passes over trees, even trees that change in the middle of a pass, and every path: exactly what is
expected for the write times the scans saw. -/
theorem C53_scanner_told_partial (exist : Str → Bool) (d d' : CalmDir) (ps : List (CalmDir × CalmDir)) (p : Str)
    (hne : d.entries ≠ []) (hp : ∀ e ∈ d.entries, e.path = p → e.regular = true) :
    about p (watch (passes exist ((d, d') :: ps))).out = told (d.fileTime p) (seenTimes p (d' :: ps.map Prod.snd)) := by
  obtain ⟨b1, h1, _, h3, h4⟩ := tend_calm d exist []
  have hb1 := h3 (.inr hne)
  have hget : b1.get p = d.fileTime p := by
    cases hd : d.fileTime p with
    | some t =>
      obtain ⟨e, he, hep, _, ht⟩ := fileTime_some hd
      rw [← hep, (h4 rfl).1 e he, ht]
    | none =>
      apply (h4 rfl).2
      intro e he hep
      have h5 := fileTime_none hd e he hep
      rw [hp e he hep] at h5
      exact absurd h5 (by simp)
  have htend : tend (d.world exist) b1 = .done b1 [] true := by
    obtain ⟨b2, h5, h6, _, _⟩ := tend_calm d exist b1
    rw [h5, h6 hb1]
  have hpass : pass (.going [] []) (d.world exist) (d'.world exist) = pass (.going b1 []) (d.world exist) (d'.world exist) := by
    simp only [pass, h1, htend]
  obtain ⟨b', out', h7, _, h8⟩ := run_calm exist p ((d, d') :: ps) b1 [] hb1
  unfold watch
  simp only [passes, List.map_cons, List.foldl_cons] at h7 ⊢
  rw [hpass, h7]
  simp only [Watch.out, h8, hget, about, List.nil_append, List.map_cons]

example : (watch (quietPasses all [tree1, tree2, tree2])).out =
    [⟨b!"/d/a", .modify, .file, none⟩, ⟨b!"/c", .create, .file, none⟩] := by decide +kernel
example : tree1.entries ≠ [] ∧ ∀ e ∈ tree1.entries, e.path = b!"/b" → e.regular = true := by decide

/-! ## C54 -/

/-- C54, the full claim: with deletions reported too. -/
def C54_full : Prop := ∀ (exist : Str → Bool) (d : CalmDir) (ds : List CalmDir) (p : Str),
  about p (watch (quietPasses exist (d :: ds))).out = toldAll (d.fileTime p) (ds.map (fun x => x.fileTime p))

/-- The full claim does not hold of the code: a deleted file is not reported. -/
theorem C54_full_refuted : ¬ C54_full := by
  intro h
  have := h (fun _ => false) tree1 [tree3] b!"/d/a"
  exact absurd this (by decide +kernel)

/-- C54 (partial: only what is reported). For every history, whatever the file system answers: a destroy event
is only ever sent for a regular file whose write time could not be read in some scan. Files that are missing
are never reported. -/
theorem C54_scanner_destroy_partial (ps : List (World × World)) (x : Ev) (hx : x ∈ (watch ps).out) (hd : x.effect = .destroy) :
    ∃ q ∈ ps, ∃ e : Entry, e.regular = true ∧ e.time = none ∧ x.path = e.path ∧
      (q.2.root = .single e ∨ ∃ items t, q.2.root = .dir items t ∧ e ∈ (iterate scanDirOpts items).1) := by
  have : ∀ (ps : List (World × World)) (s : Watch), (x ∈ s.out → False) → x ∈ (ps.foldl (fun s q => pass s q.1 q.2) s).out →
      ∃ q ∈ ps, ∃ e : Entry, e.regular = true ∧ e.time = none ∧ x.path = e.path ∧
        (q.2.root = .single e ∨ ∃ items t, q.2.root = .dir items t ∧ e ∈ (iterate scanDirOpts items).1) := by
    intro ps
    induction ps with
    | nil => intro s h1 h2; exact absurd h2 (fun h => h1 h)
    | cons q ps ih =>
      intro s h1 h2
      by_cases hq : x ∈ (pass s q.1 q.2).out
      · refine ⟨q, by simp, ?_⟩
        cases s with
        | ended o => exact absurd hq h1
        | terminated o => exact absurd hq h1
        | undefined o => exact absurd hq h1
        | going b out =>
          have hout : x ∉ out := h1
          simp only [pass] at hq
          rcases tend_silent q.1 b with ⟨b', ok, ht⟩ | ht | ht
          · rw [ht] at hq
            cases ok with
            | false => simp only [Watch.out, List.append_nil] at hq; exact absurd hq hout
            | true =>
              simp only [List.append_nil] at hq
              have key : ∀ evs, x ∈ out ++ evs → x ∈ evs := fun evs h => (List.mem_append.1 h).resolve_left hout
              unfold scan at hq
              cases hr : q.2.root with
              | missing => rw [hr] at hq; simp only [Watch.out, List.append_nil] at hq; exact absurd hq hout
              | single e =>
                rw [hr] at hq
                simp only at hq
                have : x ∈ (scanFile b' e).2.1 := by
                  cases h : (scanFile b' e).2.2 <;> rw [h] at hq <;> exact key _ hq
                obtain ⟨h3, h4, h5⟩ := scanFile_destroy b' e x this hd
                exact ⟨e, h4, h5, h3, .inl rfl⟩
              | dir items t =>
                rw [hr] at hq
                simp only at hq
                have : x ∈ (scanFiles b' (iterate scanDirOpts items).1).2 := by
                  cases h : (iterate scanDirOpts items).2 <;> rw [h] at hq <;> exact key _ hq
                obtain ⟨e, h2, h3, h4, h5⟩ := scanFiles_destroy _ b' x this hd
                exact ⟨e, h4, h5, h3, .inr ⟨items, t, rfl, h2⟩⟩
          · rw [ht] at hq
            simp only [Watch.out, List.append_nil] at hq; exact absurd hq hout
          · rw [ht] at hq
            exact absurd hq hout
      · obtain ⟨q', h3, h4⟩ := ih _ (fun h => hq h) h2
        exact ⟨q', by simp [h3], h4⟩
  exact this ps _ (by simp [Watch.out]) hx

/-- C54: a file that is gone for any number of passes and comes back with another time is reported as modified
only; with the same time, not at all. -/
theorem C54_scanner_return_partial (exist : Str → Bool) (d d' : CalmDir) (gone : List CalmDir) (p : Str) (t t' : Time)
    (ht : d.fileTime p = some t) (ht' : d'.fileTime p = some t') (hg : ∀ g ∈ gone, g.fileTime p = none) :
    about p (watch (quietPasses exist (d :: gone ++ [d']))).out = if t = t' then [] else [.modify] := by
  obtain ⟨e, he, hep, her, _⟩ := fileTime_some ht
  have hall : ∀ x ∈ d.entries, x.path = p → x.regular = true := by
    intro x hx hxp
    have hinj : ∀ l : List Entry, (l.map Entry.path).Nodup → e ∈ l → x ∈ l → x = e := by
      intro l
      induction l with
      | nil => intro _ h; exact absurd h (by simp)
      | cons y l ih =>
        intro hn h1 h2
        rw [List.map_cons, List.nodup_cons] at hn
        rcases List.mem_cons.1 h1 with rfl | h3
        · rcases List.mem_cons.1 h2 with rfl | h4
          · rfl
          · exact absurd (List.mem_map.2 ⟨x, h4, hxp.trans hep.symm⟩) hn.1
        · rcases List.mem_cons.1 h2 with rfl | h4
          · exact absurd (List.mem_map.2 ⟨e, h3, hep.trans hxp.symm⟩) hn.1
          · exact ih hn.2 h3 h4
    rw [hinj _ d.distinct he hx, her]
  have := C53_scanner_told_partial exist d d ((gone ++ [d']).map (fun x => (x, x))) p (by intro h; rw [h] at he; exact absurd he (by simp)) hall
  have e1 : passes exist ((d, d) :: (gone ++ [d']).map (fun x => (x, x))) = quietPasses exist (d :: gone ++ [d']) := by
    simp [quietPasses]
  rw [e1] at this
  rw [this, ht]
  have e2 : ((gone ++ [d']).map (fun x => (x, x))).map Prod.snd = gone ++ [d'] := by
    rw [List.map_map]; exact List.map_id' _
  rw [e2]
  have e3 : seenTimes p (gone ++ [d']) = [t'] := by
    have : ∀ l : List CalmDir, (∀ g ∈ l, g.fileTime p = none) → seenTimes p (l ++ [d']) = [t'] := by
      intro l
      induction l with
      | nil => intro _; simp [seenTimes, ht']
      | cons g l ih =>
        intro h
        simp only [List.cons_append, seenTimes, h g (by simp)]
        exact ih (fun x hx => h x (by simp [hx]))
    exact this gone hg
  rw [seenTimes.eq_def]
  simp only [ht, e3, told, if_true]

example : (watch (quietPasses all [tree1, tree3, tree3, tree2])).out =
    [⟨b!"/d/a", .modify, .file, none⟩, ⟨b!"/c", .create, .file, none⟩] := by decide +kernel
example : (watch [(tree1.world all, { root := .dir [.plain ⟨b!"/b", true, none⟩] none, exist := all })]).out =
    [⟨b!"/b", .destroy, .file, none⟩] := by decide +kernel

/-! ## C69 -/

/-- C69, the full claim: no tree ends the whole program, as long as the files' times can be read. -/
def C69_full : Prop := ∀ (items : List Item) (exist : Str → Bool),
  (∀ i ∈ items, ∀ e, i = .plain e ∨ i = .locked e → e.time.isSome = true) →
  ∀ o, watch [({ root := .dir items (some 0), exist := exist }, { root := .dir items (some 0), exist := exist })] ≠ .terminated o

/-- The full claim does not hold of the code: a directory that may not be read, anywhere in the tree, ends the
program, although the iteration was meant to skip it. -/
theorem C69_full_refuted : ¬ C69_full := by
  intro h
  refine h [.plain (wf b!"/b" 2), .locked ⟨b!"/x", false, some 1⟩] all ?_ [] (by decide +kernel)
  intro i hi e he
  simp only [List.mem_cons, List.mem_nil_iff, or_false] at hi
  rcases hi with rfl | rfl
  · rcases he with h | h
    · injection h with h; subst h; rfl
    · exact absurd h (by simp)
  · rcases he with h | h
    · exact absurd h (by simp)
    · injection h with h; subst h; rfl

/-- The options given to the iteration are none at all. -/
theorem C69_no_options : scanDirOpts = 0 := by decide

/-- C69 (partial: all directories and times can be read). The watch goes on, for any series of passes. -/
theorem C69_scanner_goes_on_partial (exist : Str → Bool) (ps : List (CalmDir × CalmDir)) :
    ∃ b out, watch (passes exist ps) = .going b out := by
  have : ∀ (ps : List (CalmDir × CalmDir)) (b : Bucket) (out : List Ev),
      ∃ b' out', (passes exist ps).foldl (fun s q => pass s q.1 q.2) (.going b out) = .going b' out' := by
    intro ps
    induction ps with
    | nil => intro b out; exact ⟨b, out, rfl⟩
    | cons q ps ih =>
      intro b out
      obtain ⟨b1, b2, evs, _, _, h3⟩ := pass_calm exist q.1 q.2 b out
      simp only [passes, List.map_cons, List.foldl_cons, h3]
      exact ih b2 (out ++ evs)
  exact this ps [] []

example : (watch (passes all [(tree0, tree1), (tree2, tree3)])).out =
    [⟨b!"/d/a", .create, .file, none⟩, ⟨b!"/b", .create, .file, none⟩] := by decide +kernel

/-! ## C70 -/

/-- C70, the full claim: whatever becomes of the watched path, every pass has a defined outcome (which one, is
in the theorems below). -/
def C70_full : Prop := ∀ (b : Bucket) (out : List Ev) (w : World),
  (∀ o, pass (.going b out) w w ≠ .undefined o)

/-- The full claim does not hold of the code: when an empty watched directory is replaced by a file, the code
runs off the end of a function that has to answer something. -/
theorem C70_full_refuted : ¬ C70_full := by
  intro h
  exact h [] [] { root := .single (wf b!"/r" 1), exist := all } [] (by decide +kernel)

/-- That state can be reached. -/
theorem C70_undefined_reachable : watch (quietPasses all [tree0] ++
    [({ root := .single (wf b!"/r" 1), exist := all }, { root := .single (wf b!"/r" 1), exist := all })]) = .undefined [] := by decide +kernel

/-- C70 (partial): when the watched path is gone, the watch ends, with failure, and says nothing of the files. -/
theorem C70_scanner_root_gone_partial (b : Bucket) (out : List Ev) (w : World) (h : w.root = .missing) :
    pass (.going b out) w w = .ended out := by
  have hs : ∀ b, scan w b = .done b [] false := by intro b; simp [scan, h]
  cases b with
  | nil => simp [pass, tend, populate, h, prune, hs]
  | cons x b => simp [pass, tend, hs]

/-- C70 (partial): when it was replaced by something that is not a directory, and something had been seen: a
regular file is watched, anything else ends the watch. -/
theorem C70_scanner_root_replaced_partial (b : Bucket) (out : List Ev) (w : World) (e : Entry) (hb : b ≠ [])
    (h : w.root = .single e) :
    (e.regular = true → ∃ b' evs, pass (.going b out) w w = .going b' (out ++ evs) ∧ ∀ x ∈ evs, x.path = e.path) ∧
    (e.regular = false → pass (.going b out) w w = .ended out) := by
  have hbe : b.isEmpty = false := by
    cases b with
    | nil => exact absurd rfl hb
    | cons _ _ => rfl
  have ht : tend w b = .done b [] true := by simp [tend, hbe]
  have hs : scan w b = .done (scanFile b e).1 (scanFile b e).2.1 (scanFile b e).2.2 := by simp [scan, h]
  constructor
  · intro hr
    have h2 : (scanFile b e).2.2 = true := by
      unfold scanFile
      rw [if_pos hr]
      repeat' split
      all_goals rfl
    refine ⟨(scanFile b e).1, (scanFile b e).2.1, ?_, ?_⟩
    · simp only [pass, ht, hs, h2, List.append_nil]
    · intro x hx
      unfold scanFile at hx
      rw [if_pos hr] at hx
      repeat' split at hx
      all_goals simp only [List.mem_singleton, List.mem_nil_iff] at hx
      all_goals first | exact absurd hx id | rw [hx]
  · intro hr
    have h2 : scanFile b e = (b, [], false) := by simp [scanFile, hr]
    simp only [pass, ht, hs, h2, List.append_nil]

example : watch (quietPasses all [tree1] ++ [({ root := .missing, exist := all }, { root := .missing, exist := all })]) = .ended [] := by
  decide +kernel
example : (watch (quietPasses all [tree3] ++ [({ root := .single (wf b!"/r" 1), exist := all }, { root := .single (wf b!"/r" 1), exist := all })])).out =
    [⟨b!"/r", .create, .file, none⟩] := by decide +kernel

end Verif.Props
