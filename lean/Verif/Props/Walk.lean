import Verif.Lemmas.Walk
import Verif.Spec.Fds
/-!
# Properties of opening a watch: the walk (C24) and the descriptors (C23)
-/

namespace Verif.Props
open Verif Verif.Model Verif.Model.Walk Verif.Model.Fds Verif.Spec Verif.Lemmas.Walk

/-! ## C24 -/

/-- C24, the full claim: for every finite tree, the walk ends and visits exactly the directories of
the tree that can be listed, each once, by its path. -/
def C24_full : Prop := ∀ (w : World) (p r : Str) (t : DirTree), Shows w p r t → FiniteDepth t →
  ∃ fuel steps, walk w fuel p = some steps ∧ (visits steps).Nodup ∧
    ∀ q, q ∈ visits steps ↔ ∃ ns, Below t ns ∧ (t.entries ns).isSome = true ∧ q = shownPath p r ns

/-- C24 (partial: all paths must fit into the `PATH_MAX` buffers). The walk ends (with every larger
recursion limit the same way) and visits exactly the listable directories, each exactly once: the root
under the path given, the others under their canonical path. Nothing that is not below the root through
real directories is visited, whatever symbolic links there are. -/
theorem C24_walk_exact_partial (w : World) (p r : Str) (t : DirTree) (sh : Shows w p r t)
    (fin : FiniteDepth t) (fits : Fits p r t) :
    ∃ fuel steps, (∀ n, fuel ≤ n → walk w n p = some steps) ∧ (visits steps).Nodup ∧
      ∀ q, q ∈ visits steps ↔ ∃ ns, Below t ns ∧ (t.entries ns).isSome = true ∧ q = shownPath p r ns := by
  obtain ⟨d, hd⟩ := fin
  obtain ⟨s, hs, rels, hv, hn, hm⟩ := walk_good sh fits d hd (d + 1) [] .root (by simp)
  refine ⟨d + 1, s, ?_, ?_, ?_⟩
  · intro n hn
    obtain ⟨k, rfl⟩ := Nat.exists_eq_add_of_le hn
    induction k with
    | zero => simpa [shownPath] using hs
    | succ k ih => exact walk_mono w _ p s (ih (by omega))
  · rw [hv]
    have : ∀ l : List (List Str), (∀ x ∈ l, Below t x) → l.Nodup → (l.map (shownPath p r)).Nodup := by
      intro l
      induction l with
      | nil => intro _ _; exact List.nodup_nil
      | cons a l ih =>
        intro h1 h2
        rw [List.nodup_cons] at h2
        rw [List.map_cons, List.nodup_cons]
        refine ⟨fun hx => ?_, ih (fun x hx => h1 x (by simp [hx])) h2.2⟩
        obtain ⟨b, hb, e⟩ := List.mem_map.1 hx
        have := shown_inj sh fits (h1 b (by simp [hb])) (h1 a (by simp)) e
        exact h2.1 (this ▸ hb)
    exact this rels (fun x hx => ((hm x).1 hx).2.1) hn
  · intro q
    rw [hv, List.mem_map]
    constructor
    · rintro ⟨ns, hx, rfl⟩
      have := (hm ns).1 hx
      exact ⟨ns, this.2.1, this.2.2, rfl⟩
    · rintro ⟨ns, h1, h2, rfl⟩
      exact ⟨ns, (hm ns).2 ⟨List.nil_prefix, h1, h2⟩, rfl⟩

/-! A small tree: `/r` holds a file, a link to a directory and the directories `a` and `b`; `a` holds the
directory `c`, `b` cannot be listed. -/

private def demoEntries : List Str → Option (List Dirent)
  | [] => some [⟨b!".", true⟩, ⟨b!"..", true⟩, ⟨b!"a", true⟩, ⟨b!"file", false⟩, ⟨b!"link", false⟩, ⟨b!"b", true⟩]
  | [[97]] => some [⟨b!".", true⟩, ⟨b!"..", true⟩, ⟨b!"c", true⟩]
  | [[97], [99]] => some [⟨b!".", true⟩, ⟨b!"..", true⟩]
  | _ => none

private def demoTree : DirTree := { entries := demoEntries, searchable := fun _ => true }

private def demoWorld : World where
  opendir q :=
    if q = b!"/link/r" then demoEntries [] else if q = b!"/r/a" then demoEntries [b!"a"]
    else if q = b!"/r/a/c" then demoEntries [b!"a", b!"c"] else none
  realpath q :=
    if q = b!"/link/r" then some b!"/r"
    else if q = b!"/link/r/a" ∨ q = b!"/r/a" then some b!"/r/a"
    else if q = b!"/link/r/b" ∨ q = b!"/r/b" then some b!"/r/b"
    else if q = b!"/r/a/c" then some b!"/r/a/c" else none

private theorem demo_below {ns} (h : Below demoTree ns) :
    ns = [] ∨ ns = [b!"a"] ∨ ns = [b!"b"] ∨ ns = [b!"a", b!"c"] := by
  induction h with
  | root => simp
  | child _ h2 h3 h4 h5 _ ih =>
    rcases ih with rfl | rfl | rfl | rfl <;> simp [demoTree, demoEntries] at h2 <;> subst h2 <;> simp_all

private theorem demo_shows : Shows demoWorld b!"/link/r" b!"/r" demoTree where
  root := rfl
  list := by
    intro ns h
    rcases demo_below h with rfl | rfl | rfl | rfl <;> rfl
  fixed := by
    intro ns h1 h2 _
    rcases demo_below h2 with rfl | rfl | rfl | rfl
    · simp at h1
    all_goals decide
  resolve := by
    intro ns des n h1 h2 h3 h4 h5 _
    rcases demo_below h1 with rfl | rfl | rfl | rfl <;> simp [demoTree, demoEntries] at h2 <;> subst h2 <;>
      simp at h3
    · rcases h3 with rfl | rfl | rfl | rfl <;> first | (exact absurd rfl h4) | (exact absurd rfl h5) | rfl
    · rcases h3 with rfl | rfl | rfl <;> first | (exact absurd rfl h4) | (exact absurd rfl h5) | rfl
    · rcases h3 with rfl | rfl <;> first | (exact absurd rfl h4) | (exact absurd rfl h5) | rfl
  names := by
    intro ns des h
    simp only [demoTree] at h
    unfold demoEntries at h
    split at h <;> simp at h <;> subst h <;> decide
  rootNonempty := by simp

private theorem demo_fits : Fits b!"/link/r" b!"/r" demoTree := by
  constructor
  · intro ns des d h1 h2 h3
    rcases demo_below h1 with rfl | rfl | rfl | rfl <;> simp [demoTree, demoEntries] at h2 <;> subst h2 <;>
      simp at h3 <;> rcases h3 with rfl | rfl | rfl | rfl | rfl | rfl <;> decide
  · intro ns h
    rcases demo_below h with rfl | rfl | rfl | rfl <;> decide

example : Shows demoWorld b!"/link/r" b!"/r" demoTree ∧ Fits b!"/link/r" b!"/r" demoTree ∧ FiniteDepth demoTree ∧
    (walk demoWorld 4 b!"/link/r").map visits = some [b!"/link/r", b!"/r/a", b!"/r/a/c"] :=
  ⟨demo_shows, demo_fits, ⟨2, fun ns h => by rcases demo_below h with rfl | rfl | rfl | rfl <;> decide⟩, by decide⟩

/-! A root whose path has 4090 characters, with the sub-directories `bcde` (path just fits) and `bcdef`
(one character too long for any system call). -/

private def longEntries : List Str → Option (List Dirent)
  | [] => some [⟨b!"bcde", true⟩, ⟨b!"bcdef", true⟩]
  | [[98, 99, 100, 101]] => some []
  | _ => none
private def longTree : DirTree := { entries := longEntries, searchable := fun _ => true }
private def longWorld (R : Str) : World where
  opendir q := if q = R then longEntries [] else if q = R ++ b!"/bcde" then some [] else none
  realpath q := if q = R then some R
    else if q = R ++ b!"/bcde" then some (R ++ b!"/bcde") else none

private theorem long_below {ns} (h : Below longTree ns) : ns = [] ∨ ns = [b!"bcde"] ∨ ns = [b!"bcdef"] := by
  induction h with
  | root => simp
  | child _ h2 h3 h4 h5 _ ih =>
    rcases ih with rfl | rfl | rfl <;> simp [longTree, longEntries] at h2 <;> subst h2 <;> simp_all

private theorem long_not_slash {R : Str} (long_len : R.length = 4090) : R ≠ b!"/" := by
  intro h; have := congrArg List.length h; rw [long_len] at this; simp at this

private theorem long_canon {R : Str} (long_len : R.length = 4090) (n : Str) : canon R [n] = R ++ b!"/" ++ n := by
  simp [canon, long_not_slash long_len]

private theorem long_shows {R : Str} (long_len : R.length = 4090) : Shows (longWorld R) R R longTree where
  root := by simp [longWorld]
  list := by
    intro ns h
    rcases long_below h with rfl | rfl | rfl
    · simp [shownPath, longWorld, longTree]
    · simp [shownPath, long_canon long_len, longWorld, longTree, longEntries]
    · simp [shownPath, long_canon long_len, longWorld, longTree, longEntries]
  fixed := by
    intro ns h1 h2 h3
    rcases long_below h2 with rfl | rfl | rfl
    · simp at h1
    · simp [long_canon long_len, longWorld]
    · rw [long_canon long_len] at h3; simp [long_len, PATH_MAX] at h3
  resolve := by
    intro ns des n h1 h2 h3 h4 h5 h6
    rcases long_below h1 with rfl | rfl | rfl <;> simp [longTree, longEntries] at h2 <;> subst h2 <;>
      simp at h3
    rcases h3 with rfl | rfl
    · simp [shownPath, long_canon long_len, longWorld, longTree]
    · simp [shownPath, long_len, PATH_MAX] at h6
  names := by
    intro ns des h
    simp only [longTree] at h
    unfold longEntries at h
    split at h <;> simp at h <;> subst h <;> decide
  rootNonempty := by intro h; simp [h] at long_len

private theorem long_cut {R : Str} (long_len : R.length = 4090) (n : Str) : joinCut R n = R ++ (b!"/" ++ n).take 5 := by
  unfold joinCut
  rw [List.append_assoc, List.take_append, long_len, List.take_of_length_le (by rw [long_len]; decide)]
  rfl

/-- C24 is false of the code when a path does not fit: the too long path is cut, not rejected, and the
cut path can name another directory, which is then visited a second time. -/
theorem C24_refuted_by_long_path : ¬ C24_full := by
  intro h
  obtain ⟨R, long_len⟩ : ∃ R : Str, R.length = 4090 := ⟨(List.replicate 409 b!"/aaaaaaaaa").flatten, by
    rw [List.length_flatten, List.map_replicate, List.sum_replicate_nat]; rfl⟩
  obtain ⟨fuel, steps, h1, h2, _⟩ := h (longWorld R) R R longTree (long_shows long_len)
    ⟨1, fun ns hb => by rcases long_below hb with rfl | rfl | rfl <;> decide⟩
  have big : walk (longWorld R) 2 R = some [.opened R, .visit R,
      .opened (R ++ b!"/bcde"), .visit (R ++ b!"/bcde"), .closed (R ++ b!"/bcde"),
      .opened (R ++ b!"/bcde"), .visit (R ++ b!"/bcde"), .closed (R ++ b!"/bcde"),
      .closed R] := by
    simp [walk, longWorld, longEntries, entries, long_cut long_len]
  have mono : ∀ n k s, walk (longWorld R) n R = some s → walk (longWorld R) (n + k) R = some s := by
    intro n k s hw
    induction k with
    | zero => exact hw
    | succ k ih => exact walk_mono _ _ _ _ ih
  have e1 := mono _ 2 _ h1
  have e2 := mono _ fuel _ big
  rw [Nat.add_comm] at e2
  rw [e2] at e1
  simp at e1
  subst e1
  simp [visits] at h2

/-! ## C23 -/

/-- C23 for the walk: in every world, every directory stream that was opened is closed. -/
theorem C23_walk_closes (w : World) (fuel : Nat) (p : Str) (steps : List Step)
    (h : walk w fuel p = some steps) (q : Str) : steps.count (.opened q) = steps.count (.closed q) :=
  walk_count w fuel p steps h q

/-- C23, the full claim: whatever the system calls answer (the kernel only promises not to hand out a
descriptor that is open), nothing leaks. -/
def C23_full : Prop := ∀ a : Ans, Fresh [] (watchFds a).2 → NoLeak (watchFds a).2

/-- C23 is false of the code when descriptor 0 is free: it is treated as a failure and never closed. -/
theorem C23_refuted_by_descriptor_zero : ¬ C23_full := by
  intro h
  have := h ⟨true, 0, ⟨-1, false, false⟩, [], .complete, 3, false, ⟨4, true, true⟩, .complete⟩
    (by simp [Fresh, watchFds, platformWatch, faMake, inMake, makeEp, created, Result.keepsRunning, Result.code])
  revert this
  unfold NoLeak
  decide

/-- C23 also fails inside the loop: a directory handle opened as descriptor 0 is not closed. -/
example : ¬ NoLeak (watchFds ⟨true, 3, ⟨4, true, true⟩, [0], .complete, 3, false, ⟨4, true, true⟩, .complete⟩).2 := by
  unfold NoLeak; decide

private theorem replay_append (s : List Int) (a b : List FdStep) :
    replay s (a ++ b) = (replay s a).bind (fun s' => replay s' b) := by
  induction a generalizing s with
  | nil => rfl
  | cons x a ih =>
    cases x with
    | opened fd => simp [replay, ih]
    | close fd =>
      simp only [List.cons_append, replay]
      split
      · exact ih s
      · split
        · exact ih _
        · rfl

private theorem replay_handles (s : List Int) (hs : List Int) (h0 : ∀ x ∈ hs, x ≠ 0) :
    replay s (hs.flatMap pathofFds) = some s := by
  induction hs with
  | nil => rfl
  | cons x hs ih =>
    rw [List.flatMap_cons, replay_append]
    have h1 : replay s (pathofFds x) = some s := by
      have := h0 x (by simp)
      unfold pathofFds created
      by_cases hx : 0 ≤ x
      · have h1 : ¬ x ≤ 0 := by omega
        have h2 : ¬ x < 0 := by omega
        simp [hx, h1, replay, h2]
      · have h1 : x ≤ 0 := by omega
        simp [hx, h1, replay]
    rw [h1]
    exact ih (fun y hy => h0 y (by simp [hy]))

private theorem makeEp_cases (e : EpAns) : (∃ fd, 0 ≤ fd ∧ makeEp e = (fd, [.opened fd]) ∧ fd = e.create) ∨
    (∃ t, (makeEp e).1 < 0 ∧ (makeEp e).2 = t ∧ ∀ s, replay s t = some s) := by
  unfold makeEp created
  by_cases h : 0 ≤ e.create
  · cases h1 : e.ctlFs <;> cases h2 : e.ctlIl <;> simp [h, replay] <;> omega
  · right; simp [h, replay]; omega

/-- C23 for inotify: whatever fails, nothing leaks and no foreign descriptor is closed. -/
theorem C23_inotify_no_leak (initFd : Int) (dmEmpty : Bool) (e : EpAns) (final : Result) :
    NoLeak (platformWatch (inMake initFd dmEmpty e) [] final).2 := by
  unfold NoLeak platformWatch inMake
  by_cases h : initFd < 0
  · have : ¬ 0 ≤ initFd := by omega
    simp [h, created, this, replay]
  · have h0 : 0 ≤ initFd := by omega
    simp only [h, if_false, created, h0, if_true]
    cases dmEmpty
    · rcases makeEp_cases e with ⟨fd, h1, h2, h3⟩ | ⟨t, h1, h2, h3⟩
      · have h4 : ¬ fd < 0 := by omega
        simp only [h2, h4, if_false, Bool.false_eq_true, List.flatMap_nil, ite_self, List.append_nil]
        by_cases hne : initFd = fd
        · subst hne; simp [replay, h4]
        · have hne' : ¬ fd = initFd := fun hx => hne hx.symm
          simp [replay, h, h4, hne, hne']
      · simp only [Bool.false_eq_true, if_false, List.flatMap_nil, ite_self, List.append_nil]
        obtain ⟨fd, t'⟩ : ∃ x, x = makeEp e := ⟨_, rfl⟩
        rw [h2, List.append_assoc, replay_append]
        simp only [replay, Option.bind]
        rw [replay_append, h3]
        simp [replay, h, h1]
    · simp [replay, h, Result.keepsRunning, Result.code]

/-- C23 (partial: descriptor 0 is taken, as in every process with a standard input). Whatever the
system calls answer, when `watch` returns every descriptor has been closed exactly once and no other
descriptor was touched. -/
theorem C23_no_leak_partial (a : Ans) (h1 : a.faInit ≠ 0) (h2 : a.faEp.create ≠ 0) (h3 : ∀ x ∈ a.faHandles, x ≠ 0) :
    NoLeak (watchFds a).2 := by
  have hin := C23_inotify_no_leak a.inInit a.inDmEmpty a.inEp a.inFinal
  have hfa : NoLeak (platformWatch (faMake a.faInit a.faEp) a.faHandles a.faFinal).2 := by
    unfold NoLeak platformWatch faMake
    by_cases h : a.faInit < 1
    · have : ¬ 0 ≤ a.faInit := by omega
      simp [h, created, this, replay, Result.keepsRunning, Result.code]
    · have h0 : 0 ≤ a.faInit := by omega
      have h0' : ¬ a.faInit < 0 := by omega
      simp only [h, if_false, created, h0, if_true]
      rcases makeEp_cases a.faEp with ⟨fd, k1, k2, k3⟩ | ⟨t, k1, k2, k3⟩
      · have k4 : ¬ fd < 1 := by omega
        have k5 : ¬ fd < 0 := by omega
        simp only [k2, k4, if_false]
        have : Result.pending.keepsRunning = true := rfl
        simp only [this, if_true]
        rw [List.append_assoc, replay_append]
        simp only [List.cons_append, List.nil_append, replay, Option.bind]
        rw [replay_append, replay_handles _ _ h3]
        simp only [Option.bind]
        by_cases hne : a.faInit = fd
        · simp [replay, hne, k5]
        · have hne' : ¬ fd = a.faInit := fun hx => hne hx.symm
          simp [replay, h0', k5, hne, hne']
      · have k4 : (makeEp a.faEp).1 < 1 := by omega
        simp only [k4, if_true]
        have : Result.eEpoll.keepsRunning = false := rfl
        simp only [this, Bool.false_eq_true, if_false, List.append_nil, k2]
        rw [List.append_assoc, List.append_assoc, replay_append]
        simp only [replay, Option.bind]
        rw [replay_append, k3]
        simp [replay, h0']
  unfold watchFds NoLeak at *
  cases a.root
  · simpa using hin
  · simp only [if_true]
    split
    · rw [replay_append, hfa]; exact hin
    · exact hfa

example : (watchFds ⟨true, 3, ⟨4, true, true⟩, [7, -1, 5], .complete, 3, false, ⟨4, true, true⟩, .complete⟩) =
    (.complete, [.opened 3, .opened 4, .opened 7, .close 7, .opened 5, .close 5, .close 3, .close 4]) := by decide

end Verif.Props
