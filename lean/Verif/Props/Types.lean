import Verif.Spec.Types
import Verif.Props.Inotify
import Verif.Props.FExact
import Verif.Props.WindowsAll
import Verif.Props.WarthogExact
import Verif.Props.DarwinAll
/-!
# Types of events (C155, C156)
-/

namespace Verif.Props
open Verif Verif.Model Verif.Spec Verif.Spec.Types

/-! ## C155 -/

/-- C155, the full claim (inotify): whatever entries the records of a batch are about, each event about an entry has the type
documented for its kind. -/
def C155_full : Prop := ∀ (S : In.Sys Unit), SoundSys S → ∀ (ks : List (Rec × Kind)), Batch (ks.map Prod.fst) → (∀ x ∈ ks, InAbout x.2 x.1) →
  ∀ st : In.St Unit, SoundTable st.dm → ∃ st' o, In.doEvRecv S (.data (Spec.batch (ks.map Prod.fst))) st = .ok (st', .pending) ∧ st'.out = st.out ++ o ∧
    ∀ e ∈ o, ¬ Message e → ∃ x ∈ ks, ∃ d, e.path = entryPath d x.1.name ∧ e.ptype = x.2.due

/-- C155, inotify: what is not a message of the watcher itself is about the entry of a record; its type is `dir` if that is a directory,
and `file` for everything else, symbolic links, pipes and devices as well. -/
theorem C155_inotify_partial {σ} (S : In.Sys σ) (hS : SoundSys S) (ks : List (Rec × Kind)) (hb : Batch (ks.map Prod.fst))
    (hk : ∀ x ∈ ks, InAbout x.2 x.1) (st : In.St σ) (ht : SoundTable st.dm) :
    ∃ st' o, In.doEvRecv S (.data (Spec.batch (ks.map Prod.fst))) st = .ok (st', .pending) ∧ st'.out = st.out ++ o ∧
      ∀ e ∈ o, ¬ Message e → ∃ x ∈ ks, ∃ d, e.path = entryPath d x.1.name ∧ e.ptype = x.2.coarse := by
  obtain ⟨st', o, h1, h2, h3⟩ := C26_no_inventions S hS _ hb st ht
  refine ⟨st', o, h1, h2, fun e he hm => ?_⟩
  have hc : ∀ x ∈ ks, x.1.ptype = x.2.coarse := by
    intro x hx
    have := hk x hx
    unfold InAbout at this
    unfold Rec.ptype Rec.onDir Rec.bit
    by_cases hd : x.1.mask.getLsbD 30 = true
    · rw [if_pos hd, this.1 hd]; rfl
    · rw [if_neg hd]
      have hne := fun h => hd (this.2 h)
      revert hne
      cases x.2 <;> simp [Kind.coarse]
  rcases h3 e he with rfl | ⟨p, rfl⟩ | ⟨r, hr, d, _, rfl⟩ | ⟨r, hr, r2, _, d, _, _, rfl⟩
  · exact absurd rfl hm
  · exact absurd rfl hm
  · obtain ⟨x, hx, rfl⟩ := List.mem_map.1 hr
    exact ⟨x, hx, d, rfl, hc x hx⟩
  · obtain ⟨x, hx, rfl⟩ := List.mem_map.1 hr
    exact ⟨x, hx, d, rfl, hc x hx⟩

private def tySys : In.Sys Unit where
  realpath _ _ := (some b!"/r", ())
  isDir _ _ := (true, ())
  addWatch _ _ := (5, ())

/-- C155 fails on Linux: a new symbolic link is reported as a file. -/
theorem C155_refuted : ¬ C155_full := by
  intro h
  obtain ⟨st', o, h1, h2, h3⟩ := h tySys (by intro w p real hr; cases hr; exact ⟨by decide, by decide⟩)
    [({ wd := 1, mask := 0x100#32, name := b!"l", pad := 15 }, .symbolicLink)]
    ⟨by intro r hr
        simp only [List.map_cons, List.map_nil, List.mem_singleton] at hr
        subst hr
        constructor <;> decide,
      by decide +kernel, trivial⟩
    (by intro x hx
        rw [List.mem_singleton] at hx
        subst hx
        unfold InAbout; decide)
    { dm := [(1, b!"/r")], sys := () } (by intro e he; simp at he; subst he; exact ⟨by decide, by decide, by decide⟩)
  obtain ⟨s1, hs1, hs2⟩ : ∃ s, In.doEvRecv tySys (.data (Spec.batch [{ wd := 1, mask := 0x100#32, name := b!"l", pad := 15 }])) { dm := [(1, b!"/r")], sys := () }
      = .ok (s, .pending) ∧ s.out = [{ path := b!"/r/l", effect := .create, ptype := .file }] := ⟨_, rfl, rfl⟩
  simp only [List.map_cons, List.map_nil] at h1
  rw [hs1] at h1
  injection h1 with h1
  injection h1 with h1 _
  subst h1
  rw [hs2] at h2
  simp only [List.nil_append] at h2
  subst h2
  obtain ⟨x, hx, d, _, h5⟩ := h3 _ (List.mem_singleton.2 rfl) (by unfold Message; decide)
  rw [List.mem_singleton] at hx
  subst hx
  cases h5

example : InAbout .symbolicLink { wd := 1, mask := 0x100#32, name := b!"l", pad := 15 } ∧ InAbout .directory { wd := 1, mask := 0x40000100#32, name := b!"d", pad := 15 } := by
  unfold InAbout; decide

/-- What an event of a fanotify batch can be. -/
private def FForm (rs : List FRec) (e : Ev) : Prop :=
  (e.ptype = .watcher ∧ e.effect = .other ∧ e.assoc = none) ∨
  (∃ r ∈ rs, r.overflow = false ∧ ∃ p, e = { path := p, effect := r.effect, ptype := r.ptype }) ∨
  (∃ r ∈ rs, ∃ p q, e = { path := p, effect := .rename, ptype := r.ptype, assoc := some { path := q, effect := .rename, ptype := r.ptype } })

private theorem FForm.mono {l l' : List FRec} {e : Ev} (h : FForm l e) (hs : ∀ r ∈ l, r ∈ l') : FForm l' e := by
  rcases h with h | ⟨r, hr, h⟩ | ⟨r, hr, h⟩
  · exact .inl h
  · exact .inr (.inl ⟨r, hs r hr, h⟩)
  · exact .inr (.inr ⟨r, hs r hr, h⟩)

private theorem mark_form {σ} (S : Fa.Sys σ) (rs : List FRec) (p : Str) (w : σ) : ∀ e ∈ (Fa.markSpec S p w).1, FForm rs e.1 := by
  have key : ∀ (w' : σ) (e : Ev × σ), e ∈ [(({ path := b!"w/sys/not_watched@" ++ p, effect := .other, ptype := .watcher } : Ev), w')] → FForm rs e.1 := by
    intro w' e he
    rw [List.mem_singleton] at he
    subst he
    exact .inl ⟨rfl, rfl, rfl⟩
  intro e he
  unfold Fa.markSpec at he
  simp only at he
  split at he
  · exact key _ e he
  · split at he
    · exact key _ e he
    · split at he
      · cases he
      · exact key _ e he

private theorem told_form {σ} (S : Fa.Sys σ) : ∀ (n : Nat) (rs : List FRec), rs.length ≤ n → ∀ (full : Bool) (len : Int) (w : σ) x, Fa.told S full rs len w = some x →
    ∀ e ∈ x.1, FForm rs e.1 := by
  intro n
  induction n with
  | zero =>
    intro rs hn full len w x hx
    rw [List.length_eq_zero_iff.1 (by omega : rs.length = 0)] at hx
    simp only [Fa.told, Option.some.injEq] at hx
    subst hx; intro e he; cases he
  | succ n ih =>
    intro rs hn full len w x hx
    cases rs with
    | nil =>
      simp only [Fa.told, Option.some.injEq] at hx
      subst hx; intro e he; cases he
    | cons r rest =>
      simp only [List.length_cons] at hn
      rw [Fa.told] at hx
      by_cases h1 : len < r.bytes.length
      · rw [if_pos h1] at hx
        simp only [Option.some.injEq] at hx
        subst hx; intro e he; cases he
      rw [if_neg h1] at hx
      by_cases h2 : r.overflow = true
      · rw [if_pos h2] at hx
        simp only [Option.some.injEq] at hx
        subst hx; intro e he; cases he
      rw [if_neg h2] at hx
      have single : ∀ x, (match Fa.ask S r w with
          | (.nameless, _) => none
          | (.gone, w) => some (([] : List (Ev × σ)), w, Result.wBadFd)
          | (.at p, w) =>
            (Fa.told S full rest (len - r.bytes.length) (if r.created && r.onDir then Fa.markSpec S p w else ([], w)).2).map fun k =>
              ((if r.created && r.onDir then Fa.markSpec S p w else ([], w)).1 ++
                ({ path := p, effect := r.effect, ptype := r.ptype }, (if r.created && r.onDir then Fa.markSpec S p w else ([], w)).2) :: k.1, k.2)) = some x →
          ∀ e ∈ x.1, FForm (r :: rest) e.1 := by
        intro x hx
        cases ha : Fa.ask S r w with
        | mk a w1 =>
          rw [ha] at hx
          cases a with
          | nameless => cases hx
          | gone => injection hx with hx; subst hx; intro e he; cases he
          | «at» p =>
            simp only [Option.map_eq_some_iff] at hx
            obtain ⟨k, hk, rfl⟩ := hx
            intro e he
            rcases List.mem_append.1 he with he | he
            · split at he
              · exact mark_form S _ p w1 e he
              · cases he
            · rcases List.mem_cons.1 he with rfl | he
              · exact .inr (.inl ⟨r, List.mem_cons_self, by simpa using h2, p, rfl⟩)
              · exact (ih rest (by omega) full _ _ k hk e he).mono (fun r hr => List.mem_cons_of_mem _ hr)
      have double : ∀ (a b : FRec) (l : List FRec) (len' : Int) x, l.length ≤ n → (∀ y ∈ l, y ∈ r :: rest) → (match Fa.ask2 S a b w with
          | (.nameless, _) => none
          | (.gone, w) => some (([] : List (Ev × σ)), w, Result.wBadFd)
          | (.at p q, w) => (Fa.told S full l len' w).map fun k =>
            (({ path := p, effect := .rename, ptype := r.ptype, assoc := some { path := q, effect := .rename, ptype := r.ptype } }, w) :: k.1, k.2)) = some x →
          ∀ e ∈ x.1, FForm (r :: rest) e.1 := by
        intro a b l len' x hl hs hx
        cases ha : Fa.ask2 S a b w with
        | mk a w1 =>
          rw [ha] at hx
          cases a with
          | nameless => cases hx
          | gone => injection hx with hx; subst hx; intro e he; cases he
          | «at» p q =>
            simp only [Option.map_eq_some_iff] at hx
            obtain ⟨k, hk, rfl⟩ := hx
            intro e he
            rcases List.mem_cons.1 he with rfl | he
            · exact .inr (.inr ⟨r, List.mem_cons_self, p, q, rfl⟩)
            · exact (ih l hl full _ _ k hk e he).mono hs
      cases rest with
      | nil => exact single x hx
      | cons r2 rest2 =>
        simp only at hx
        simp only [List.length_cons] at hn
        split at hx
        · exact single x hx
        · split at hx
          · split at hx
            · cases hx
            · exact double _ _ _ _ x (by omega) (fun y hy => List.mem_cons_of_mem _ (List.mem_cons_of_mem _ hy)) hx
          · split at hx
            · exact double _ _ _ _ x (by simp; omega) (fun y hy => List.mem_cons_of_mem _ hy) hx
            · exact single x hx

private theorem recv_form {σ} (S : Fa.Sys σ) (hS : Fa.SaysWhy S) (rs : List FRec) (hb : FBatch rs) (st st' : Fa.St σ) (res : Result) (hl : st.buf.length = 4096)
    (h : Fa.doEvRecv S (.data (fbatch rs)) st = .ok (st', res)) : ∃ o, st'.out = st.out ++ o ∧ ∀ e ∈ o, FForm rs e.1 := by
  have h1 := C116_exact S hS rs st hb hl
  cases ht : Fa.told S (decide (4092 < (fbatch rs).length)) rs (fbatch rs).length st.sys with
  | none =>
    rw [ht] at h1
    obtain ⟨m, hm⟩ := h1
    rw [h] at hm; cases hm
  | some x =>
    obtain ⟨sent, w, res'⟩ := x
    rw [ht] at h1
    obtain ⟨st2, h2, h4, _⟩ := h1
    rw [h] at h2
    injection h2 with h2
    injection h2 with h2 h3
    subst h2
    exact ⟨sent, h4, told_form S _ rs (Nat.le_refl _) _ _ _ _ ht⟩

/-- C155, fanotify: the type is `dir` or `file` of an entry of the batch (which entry, if renames of different entries are taken for one, C38). -/
theorem C155_fanotify_partial {σ} (S : Fa.Sys σ) (hS : Fa.SaysWhy S) (ks : List (FRec × Kind)) (hb : FBatch (ks.map Prod.fst))
    (hk : ∀ x ∈ ks, FanAbout x.2 x.1) (st st' : Fa.St σ) (res : Result) (hl : st.buf.length = 4096)
    (h : Fa.doEvRecv S (.data (fbatch (ks.map Prod.fst))) st = .ok (st', res)) :
    ∃ o, st'.out = st.out ++ o ∧ ∀ e ∈ o, ¬ Message e.1 → ∃ x ∈ ks, e.1.ptype = x.2.coarse := by
  obtain ⟨o, h1, h2⟩ := recv_form S hS _ hb st st' res hl h
  refine ⟨o, h1, fun e he hm => ?_⟩
  have hc : ∀ x ∈ ks, x.1.ptype = x.2.coarse := by
    intro x hx
    have := hk x hx
    unfold FanAbout at this
    unfold FRec.ptype FRec.onDir FRec.bit
    by_cases hd : x.1.mask.getLsbD 30 = true
    · rw [if_pos hd, this.1 hd]; rfl
    · rw [if_neg hd]
      have hne := fun h => hd (this.2 h)
      revert hne
      cases x.2 <;> simp [Kind.coarse]
  rcases h2 e he with ⟨h3, _⟩ | ⟨r, hr, _, p, h3⟩ | ⟨r, hr, p, q, h3⟩
  · exact absurd h3 hm
  all_goals
    obtain ⟨x, hx, rfl⟩ := List.mem_map.1 hr
    exact ⟨x, hx, by rw [h3]; exact hc x hx⟩

example : ∃ ks : List (FRec × Kind), FBatch (ks.map Prod.fst) ∧ ks.length = 4 ∧ ∀ x ∈ ks, FanAbout x.2 x.1 := by
  refine ⟨crossRecs.map (fun r => (r, .symbolicLink)), ?_, rfl, ?_⟩
  · have : ((crossRecs.map (fun r => (r, Kind.symbolicLink))).map Prod.fst) = crossRecs := rfl
    rw [this]; exact crossRecs_batch
  · intro x hx
    simp only [crossRecs, List.map_cons, List.map_nil, List.mem_cons, List.not_mem_nil, or_false] at hx
    rcases hx with rfl | rfl | rfl | rfl <;> (unfold FanAbout; decide)

/-- What an event on Windows can be. -/
private def WForm (isDir : Windows.WStr → Option Bool) (e : Windows.WEv) : Prop :=
  e.ptype = Windows.ptypeOf isDir e.path ∧ ((e.assoc = none ∧ e.effect ≠ .rename) ∨ (e.effect = .rename ∧ ∃ q, e.assoc = some (q, Windows.ptypeOf isDir q)))

private theorem plain_form (isDir : Windows.WStr → Option Bool) (base : Windows.WStr) (r : Spec.Windows.Rec) : WForm isDir (Spec.Windows.plainEvent isDir base r) := by
  refine ⟨rfl, .inl ⟨rfl, ?_⟩⟩
  unfold Spec.Windows.plainEvent Spec.Windows.plainEffect
  simp only
  split <;> simp

private theorem reports_form {isDir : Windows.WStr → Option Bool} {base : Windows.WStr} {rs : List Spec.Windows.Rec} {evs : List Windows.WEv}
    (h : Spec.Windows.ReportsAll isDir base rs evs) : ∀ e ∈ evs, WForm isDir e := by
  have hmap : ∀ (ps : List Spec.Windows.Rec), ∀ e ∈ ps.map (Spec.Windows.plainEvent isDir base), WForm isDir e := by
    intro ps e he
    obtain ⟨r, _, rfl⟩ := List.mem_map.1 he
    exact plain_form isDir base r
  induction h with
  | nil => intro e he; cases he
  | plain r rs o _ _ ih =>
    intro e he
    rcases List.mem_cons.1 he with rfl | he
    · exact plain_form isDir base r
    · exact ih e he
  | oldNew a b ps rs o _ _ _ _ ih =>
    intro e he
    rcases List.mem_append.1 he with he | he
    · exact hmap ps e he
    · rcases List.mem_cons.1 he with rfl | he
      · exact ⟨rfl, .inr ⟨rfl, _, rfl⟩⟩
      · exact ih e he
  | newOld a b ps rs o _ _ _ _ ih =>
    intro e he
    rcases List.mem_append.1 he with he | he
    · exact hmap ps e he
    · rcases List.mem_cons.1 he with rfl | he
      · exact ⟨rfl, .inr ⟨rfl, _, rfl⟩⟩
      · exact ih e he
  | overtaken a b ps rs o _ _ _ ih =>
    intro e he
    rcases List.mem_append.1 he with he | he
    · exact hmap ps e he
    · exact ih e he
  | left a ps _ _ => exact hmap ps

/-- C155, Windows: the type is what the path is when the event is sent, not what it was before the change. So whatever was removed, or renamed
away, and is not there any more is told as a file, also if it was a directory. (`isDir` answers `some false` for what is not there.) -/
theorem C155_windows_partial (isDir : Windows.WStr → Option Bool) (base : Windows.WStr) (rs : List Spec.Windows.Rec) (evs : List Windows.WEv)
    (hf : ∀ r ∈ rs, r.Fits) (h16 : 16 ≤ (Spec.Windows.encode rs).length) (hd : Delivers isDir base rs evs) (e : Windows.WEv) (he : e ∈ evs) :
    (isDir e.path = some true → e.ptype = .dir) ∧ (isDir e.path = some false → e.ptype = .file) := by
  have h := reports_form ((C124_batch_exact isDir base rs evs hf h16).1 hd) e he
  constructor <;> (intro hx; rw [h.1, Windows.ptypeOf, hx])

-- a directory `d` is removed, a directory `e` is renamed to `n`: both removals are told as files
example : ∃ evs, Delivers (fun p => some (p == [67, 92, 110])) [67] [⟨2, [100, 100]⟩, ⟨4, [101]⟩, ⟨5, [110]⟩] evs ∧
    evs = [⟨[67, 92, 100, 100], .destroy, .file, none⟩, ⟨[67, 92, 101], .rename, .file, some ([67, 92, 110], .dir)⟩] := by
  refine ⟨_, (C124_batch_exact _ _ _ _ ?_ (by decide)).2 ?_, rfl⟩
  · intro r hr
    simp only [List.mem_cons, List.not_mem_nil, or_false] at hr
    rcases hr with rfl | rfl | rfl <;> (unfold Spec.Windows.Rec.Fits; decide)
  · exact .plain _ _ _ (by decide) (.oldNew _ _ [] [] [] rfl rfl (by simp) .nil)

/-! ## C156 -/

/-- C156, inotify. -/
theorem C156_inotify {σ} (S : In.Sys σ) (hS : SoundSys S) (rs : List Rec) (hb : Batch rs) (st : In.St σ) (ht : SoundTable st.dm) :
    ∃ st' o, In.doEvRecv S (.data (Spec.batch rs)) st = .ok (st', .pending) ∧ st'.out = st.out ++ o ∧
      ∀ e ∈ o, Paired e ∧ (Message e → e.effect = .other ∧ e.assoc = none) ∧ (¬ Message e → Basic e.effect ∧ (e.ptype = .dir ∨ e.ptype = .file)) := by
  obtain ⟨st', o, h1, h2, h3⟩ := C26_no_inventions S hS _ hb st ht
  refine ⟨st', o, h1, h2, fun e he => ?_⟩
  have hp : ∀ r : Rec, r.ptype = .dir ∨ r.ptype = .file := by intro r; unfold Rec.ptype; split <;> simp
  have hb : ∀ r : Rec, Basic r.effect := by
    intro r; unfold Rec.effect Basic
    split
    · simp
    · split
      · simp
      · split <;> simp
  rcases h3 e he with rfl | ⟨p, rfl⟩ | ⟨r, hr, d, _, rfl⟩ | ⟨r, hr, r2, _, d, _, _, rfl⟩
  · exact ⟨fun a ha => by (cases ha), fun _ => ⟨rfl, rfl⟩, fun hm => absurd rfl hm⟩
  · exact ⟨fun a ha => by (cases ha), fun _ => ⟨rfl, rfl⟩, fun hm => absurd rfl hm⟩
  · refine ⟨fun a ha => by (cases ha), fun hm => ?_, fun _ => ⟨hb r, hp r⟩⟩
    exfalso
    have hm : r.ptype = .watcher := hm
    rcases hp r with h | h <;> rw [h] at hm <;> cases hm
  · refine ⟨fun a ha => by (cases ha; exact ⟨rfl, rfl, rfl⟩), fun hm => ?_, fun _ => ⟨.inr (.inr (.inr rfl)), hp r⟩⟩
    exfalso
    have hm : r.ptype = .watcher := hm
    rcases hp r with h | h <;> rw [h] at hm <;> cases hm

/-- C156, fanotify: the same for every batch of records with something to say. -/
theorem C156_fanotify {σ} (S : Fa.Sys σ) (hS : Fa.SaysWhy S) (rs : List FRec) (hb : FBatch rs)
    (hk : ∀ r ∈ rs, r.overflow = false → ∃ k, (k = 1 ∨ k = 6 ∨ k = 7 ∨ k = 8 ∨ k = 9) ∧ r.mask.getLsbD k = true)
    (st st' : Fa.St σ) (res : Result) (hl : st.buf.length = 4096) (h : Fa.doEvRecv S (.data (fbatch rs)) st = .ok (st', res)) :
    ∃ o, st'.out = st.out ++ o ∧ ∀ e ∈ o, Paired e.1 ∧ (Message e.1 → e.1.effect = .other ∧ e.1.assoc = none) ∧
      (¬ Message e.1 → Basic e.1.effect ∧ (e.1.ptype = .dir ∨ e.1.ptype = .file)) := by
  obtain ⟨o, h1, h2⟩ := recv_form S hS rs hb st st' res hl h
  refine ⟨o, h1, fun e he => ?_⟩
  have hp : ∀ r : FRec, r.ptype = .dir ∨ r.ptype = .file := by intro r; unfold FRec.ptype; split <;> simp
  have hw : ∀ r : FRec, r.ptype ≠ .watcher := by intro r hm; rcases hp r with h | h <;> rw [h] at hm <;> cases hm
  rcases h2 e he with ⟨h3, h4, h5⟩ | ⟨r, hr, ho, p, h3⟩ | ⟨r, hr, p, q, h3⟩
  · exact ⟨fun a ha => by (rw [h5] at ha; cases ha), fun _ => ⟨h4, h5⟩, fun hm => absurd h3 hm⟩
  · rw [h3]
    refine ⟨fun a ha => by (cases ha), fun hm => absurd hm (hw r), fun _ => ⟨?_, hp r⟩⟩
    obtain ⟨k, hk, hbit⟩ := hk r hr ho
    show Basic r.effect
    unfold FRec.effect Basic FRec.created FRec.deleted FRec.modified FRec.movedFrom FRec.movedTo FRec.bit
    rcases hk with rfl | rfl | rfl | rfl | rfl <;> simp only [hbit] <;> (repeat' split) <;> simp_all
  · rw [h3]
    exact ⟨fun a ha => by (cases ha; exact ⟨rfl, rfl, rfl⟩), fun hm => absurd hm (hw r), fun _ => ⟨.inr (.inr (.inr rfl)), hp r⟩⟩

example : ∀ r ∈ crossRecs, r.overflow = false → ∃ k, (k = 1 ∨ k = 6 ∨ k = 7 ∨ k = 8 ∨ k = 9) ∧ r.mask.getLsbD k = true := by
  intro r hr _
  simp only [crossRecs, List.mem_cons, List.not_mem_nil, or_false] at hr
  rcases hr with rfl | rfl | rfl | rfl
  · exact ⟨7, by simp, by decide⟩
  · exact ⟨6, by simp, by decide⟩
  · exact ⟨1, by simp, by decide⟩
  · exact ⟨9, by simp, by decide⟩

/-- C156, Windows: an event has an associated one exactly if it is a rename; its types are those of the two paths, each asked for by itself;
the type is never `watcher`. -/
theorem C156_windows (isDir : Windows.WStr → Option Bool) (base : Windows.WStr) (rs : List Spec.Windows.Rec) (evs : List Windows.WEv)
    (hf : ∀ r ∈ rs, r.Fits) (h16 : 16 ≤ (Spec.Windows.encode rs).length) (hd : Delivers isDir base rs evs) (e : Windows.WEv) (he : e ∈ evs) :
    (e.effect = .rename ↔ e.assoc ≠ none) ∧ (e.ptype = .dir ∨ e.ptype = .file ∨ e.ptype = .other) ∧
      (∀ q t, e.assoc = some (q, t) → t = .dir ∨ t = .file ∨ t = .other) := by
  obtain ⟨h1, h2⟩ := reports_form ((C124_batch_exact isDir base rs evs hf h16).1 hd) e he
  have ht : ∀ q, Windows.ptypeOf isDir q = .dir ∨ Windows.ptypeOf isDir q = .file ∨ Windows.ptypeOf isDir q = .other := by
    intro q; unfold Windows.ptypeOf; split <;> simp
  refine ⟨?_, by rw [h1]; exact ht _, ?_⟩
  · rcases h2 with ⟨ha, hr⟩ | ⟨hr, q, ha⟩
    · simp [ha, hr]
    · simp [ha, hr]
  · intro q t hq
    rcases h2 with ⟨ha, _⟩ | ⟨_, q', ha⟩
    · rw [ha] at hq; cases hq
    · rw [ha] at hq; injection hq with hq; injection hq with h3 h4; subst h4; exact ht _

/-- C156, the portable scanner, whatever the file system answers: everything told is a creation, a destruction or a modification of a regular
file; no directory, no link and no rename is ever told of. -/
theorem C156_scanner (ps : List (Warthog.World × Warthog.World)) : ∀ e ∈ (Warthog.watch ps).out,
    e.ptype = .file ∧ e.assoc = none ∧ (e.effect = .create ∨ e.effect = .destroy ∨ e.effect = .modify) := by
  obtain ⟨m, h⟩ := C133_story ps
  generalize (Warthog.watch ps).out = evs at h
  generalize Spec.Scan.fateOf (Warthog.watch ps) = f at h
  have hsee : ∀ {m e x m'}, Spec.Scan.Sees m e x m' → ∀ y ∈ x, y.ptype = .file ∧ y.assoc = none ∧ (y.effect = .create ∨ y.effect = .destroy ∨ y.effect = .modify) := by
    intro m e x m' h y hy
    cases h <;> first | (cases hy; done) | (rw [List.mem_singleton] at hy; subst hy; simp)
  have hall : ∀ {m es x m'}, Spec.Scan.SeesAll m es x m' → ∀ y ∈ x, y.ptype = .file ∧ y.assoc = none ∧ (y.effect = .create ∨ y.effect = .destroy ∨ y.effect = .modify) := by
    intro m es x m' h
    induction h with
    | nil => intro y hy; cases hy
    | cons h _ ih =>
      intro y hy
      rcases List.mem_append.1 hy with hy | hy
      · exact hsee h y hy
      · exact ih y hy
  have hsec : ∀ {m root x m' f}, Spec.Scan.Second m root x m' f → ∀ y ∈ x, y.ptype = .file ∧ y.assoc = none ∧ (y.effect = .create ∨ y.effect = .destroy ∨ y.effect = .modify) := by
    intro m root x m' f h2 e he
    cases h2 with
    | gone => cases he
    | noFile => cases he
    | file _ h => exact hsee h e he
    | listed _ h => exact hall h e he
    | stopped _ h => exact hall h e he
  induction h with
  | start => intro e he; cases he
  | over _ _ ih => exact ih
  | first _ _ _ ih => exact ih
  | pass _ _ h2 ih =>
    intro e he
    rcases List.mem_append.1 he with he | he
    · exact ih e he
    · exact hsec h2 e he

example : ∃ ps, (Warthog.watch ps).out = [⟨b!"/w/f", .create, .file, none⟩] :=
  ⟨[(⟨.dir [] (some 9), fun _ => true⟩, ⟨.dir [.plain ⟨b!"/w/f", true, some 3⟩, .plain ⟨b!"/w/d", false, some 3⟩] (some 9), fun _ => true⟩)], by decide +kernel⟩

/-- C156, Darwin, for every history of notifications: an event has an associated one exactly if it is a rename, and that is a rename of the same
type; ownership changes are told as modifications, and the type is never `watcher`. -/
theorem C156_darwin (ns : List Darwin.Note) : ∀ e ∈ (Darwin.recvAll {} ns).out,
    Paired e ∧ (e.effect = .rename ↔ e.assoc ≠ none) ∧ e.effect ≠ .owner ∧ e.ptype ≠ .watcher := by
  have h := C127_darwin_exact ns
  generalize (Darwin.recvAll {} ns).out = o at h
  have ht : ∀ n, Spec.Darwin.typeTold n ≠ .watcher := by
    intro n; unfold Spec.Darwin.typeTold; repeat' split
    all_goals simp
  have hif : ∀ {c : Prop} {e : Ev} {l : List Ev}, Spec.Darwin.If c e l → ∀ y ∈ l, y = e := by
    intro c e l h y hy
    rcases h with ⟨_, rfl⟩ | ⟨_, rfl⟩
    · exact List.mem_singleton.1 hy
    · cases hy
  induction h with
  | nil => intro e he; cases he
  | snoc ns n o es _ hs ih =>
    intro e he
    rcases List.mem_append.1 he with he | he
    · exact ih e he
    · have plain : ∀ x, x = .other ∨ x = .create ∨ x = .destroy ∨ x = .modify → e = ⟨n.path, x, Spec.Darwin.typeTold n, none⟩ →
          Paired e ∧ (e.effect = .rename ↔ e.assoc ≠ none) ∧ e.effect ≠ .owner ∧ e.ptype ≠ .watcher := by
        rintro x hx rfl
        refine ⟨fun a ha => by (cases ha), ?_, ?_, ht n⟩ <;> rcases hx with rfl | rfl | rfl | rfl <;> simp
      rcases hs with ⟨_, rfl⟩ | ⟨_, c, d, m, r, rfl, hc, hd, hm, hr⟩
      · exact plain .other (by simp) (List.mem_singleton.1 he)
      · simp only [List.mem_append] at he
        rcases he with ((he | he) | he) | he
        · exact plain .create (by simp) (hif hc e he)
        · exact plain .destroy (by simp) (hif hd e he)
        · exact plain .modify (by simp) (hif hm e he)
        · rcases hr with ⟨a, _, _, _, rfl⟩ | ⟨_, rfl⟩
          · rw [List.mem_singleton] at he
            subst he
            exact ⟨fun a ha => by (cases ha; exact ⟨rfl, rfl, rfl⟩), by simp, by simp, ht n⟩
          · cases he

example : (Darwin.recvAll {} [⟨b!"/w/b", 0x10800#32, false⟩, ⟨b!"/w/c", 0x10800#32, true⟩]).out =
    [⟨b!"/w/b", .rename, .file, some ⟨b!"/w/c", .rename, .file⟩⟩] := by decide +kernel

end Verif.Props
