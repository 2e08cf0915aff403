import Verif.Spec.WarthogExact
import Verif.Lemmas.Warthog
/-!
# What the portable scanner reports, whatever the file system answers: C133
-/

namespace Verif.Props
open Verif Verif.Model Verif.Model.Warthog Verif.Spec.Scan Verif.Lemmas.Warthog

private def Rep (b : Bucket) (m : Mem) : Prop := ∀ p, b.get p = m p

private theorem rep_put {b : Bucket} {m : Mem} (h : Rep b m) (p : Str) (t : Time) : Rep (b.set p t) (m.put p (some t)) := by
  intro q; rw [get_set]; simp only [Mem.put]; split <;> simp_all [h q]

private theorem rep_erase {b : Bucket} {m : Mem} (h : Rep b m) (p : Str) : Rep (b.erase p) (m.put p none) := by
  intro q; rw [get_erase]; simp only [Mem.put]; split <;> simp_all [h q]

private theorem rep_blank {b : Bucket} {m : Mem} (h : Rep b m) : Blank m ↔ b = [] := by
  constructor
  · intro hm
    cases b with
    | nil => rfl
    | cons x b =>
      have := h x.1
      rw [hm x.1] at this
      simp [Bucket.get] at this
  · intro hb p; rw [← h p, hb]; rfl

private theorem listed_iterate {items : List Item} {es : List Entry} {b : Bool} (h : Listed items es b) : iterate scanDirOpts items = (es, b) := by
  cases h with
  | all => exact iterate_calm es
  | stopped es e rest =>
    induction es with
    | nil => simp [iterate, show scanDirOpts = 0 from by decide]
    | cons x es ih => simp only [List.map_cons, List.cons_append, iterate, ih]

private theorem listed_total : ∀ items : List Item, ∃ es b, Listed items es b
  | [] => ⟨[], false, .all []⟩
  | .plain e :: is => by
    obtain ⟨es, b, h⟩ := listed_total is
    cases h with
    | all => exact ⟨_, _, .all (e :: es)⟩
    | stopped es x rest => exact ⟨_, _, .stopped (e :: es) x rest⟩
  | .locked e :: is => ⟨_, _, .stopped [] e is⟩

private theorem sees_scan {b : Bucket} {m m' : Mem} {e : Entry} {x : List Ev} (hb : Rep b m) (h : Sees m e x m') :
    Rep (scanFile b e).1 m' ∧ (scanFile b e).2.1 = x ∧ (scanFile b e).2.2 = e.regular := by
  have hg := hb e.path
  cases h with
  | noFile h => simp [scanFile, h]; exact hb
  | unreadable h ht => simp only [scanFile, h, ht, if_true]; exact ⟨rep_erase hb _, by simp⟩
  | new h ht hm =>
    rw [hm] at hg
    simp only [scanFile, h, ht, hg, if_true]; exact ⟨rep_put hb _ _, by simp⟩
  | changed h ht hm hne =>
    rw [hm] at hg
    simp only [scanFile, h, ht, hg, if_true, if_pos (Ne.symm hne)]; exact ⟨rep_put hb _ _, by simp⟩
  | same h ht hm =>
    rw [hm] at hg
    simp [scanFile, h, ht, hg]; exact hb

private theorem sees_total (m : Mem) (e : Entry) : ∃ x m', Sees m e x m' := by
  cases hr : e.regular with
  | false => exact ⟨_, _, .noFile hr⟩
  | true =>
    cases ht : e.time with
    | none => exact ⟨_, _, .unreadable hr ht⟩
    | some t =>
      cases hm : m e.path with
      | none => exact ⟨_, _, .new hr ht hm⟩
      | some u =>
        by_cases hu : t = u
        · subst hu; exact ⟨_, _, .same hr ht hm⟩
        · exact ⟨_, _, .changed hr ht hm hu⟩

private theorem seesAll_scan {m m' : Mem} {es : List Entry} {x : List Ev} (h : SeesAll m es x m') : ∀ {b : Bucket}, Rep b m →
    Rep (scanFiles b es).1 m' ∧ (scanFiles b es).2 = x := by
  induction h with
  | nil => intro b hb; exact ⟨hb, rfl⟩
  | cons h _ ih =>
    intro b hb
    obtain ⟨h1, h2, _⟩ := sees_scan hb h
    obtain ⟨h3, h4⟩ := ih h1
    simp only [scanFiles]
    exact ⟨h3, by rw [h2, h4]⟩

private theorem seesAll_total : ∀ (es : List Entry) (m : Mem), ∃ x m', SeesAll m es x m'
  | [], _ => ⟨_, _, .nil⟩
  | e :: es, m => by
    obtain ⟨x, m1, h1⟩ := sees_total m e
    obtain ⟨y, m2, h2⟩ := seesAll_total es m1
    exact ⟨_, _, .cons h1 h2⟩

private theorem learns_fill {rt : Option Time} {m m' : Mem} {es : List Entry} (h : Learns rt m es m') : ∀ {b : Bucket}, Rep b m →
    ∃ b', fill b rt es = some b' ∧ Rep b' m' := by
  induction h with
  | nil => intro b hb; exact ⟨b, rfl, hb⟩
  | cons h _ ih =>
    rename_i m0 _ e es t _
    intro b hb
    obtain ⟨b', h1, h2⟩ := ih (rep_put hb e.path t)
    refine ⟨b', ?_, h2⟩
    rcases h with h | ⟨h, hr⟩
    · simp only [fill, h]; exact h1
    · simp only [fill, h, hr] at h1 ⊢; exact h1

private theorem fill_fails {es : List Entry} {e : Entry} (he : e ∈ es) (ht : e.time = none) : ∀ b : Bucket, fill b none es = none := by
  induction es with
  | nil => cases he
  | cons x es ih =>
    intro b
    cases hx : x.time with
    | none => simp [fill, hx]
    | some t =>
      simp only [fill, hx]
      rcases List.mem_cons.1 he with rfl | he
      · rw [ht] at hx; cases hx
      · exact ih he _

private theorem learns_total (rt : Option Time) : ∀ (es : List Entry) (m : Mem), (∃ m', Learns rt m es m') ∨ (rt = none ∧ ∃ e ∈ es, e.time = none)
  | [], _ => .inl ⟨_, .nil⟩
  | e :: es, m => by
    cases ht : e.time with
    | some t =>
      rcases learns_total rt es (m.put e.path (some t)) with ⟨m', h⟩ | ⟨h, x, hx, hn⟩
      · exact .inl ⟨m', .cons (.inl ht) h⟩
      · exact .inr ⟨h, x, List.mem_cons_of_mem _ hx, hn⟩
    | none =>
      cases hr : rt with
      | none => exact .inr ⟨rfl, e, List.mem_cons_self .., ht⟩
      | some t =>
        subst hr
        rcases learns_total (some t) es (m.put e.path (some t)) with ⟨m', h⟩ | ⟨h, _⟩
        · exact .inl ⟨m', .cons (.inr ⟨ht, rfl⟩) h⟩
        · cases h

/-- The first half says nothing. -/
private theorem first_tend {b : Bucket} {m m' : Mem} {w : World} {f : Fate} (hb : Rep b m) (h : First m w.root m' f) :
    match f with
    | .goes => ∃ b', tend w b = .done b' [] true ∧ Rep b' m'
    | .failed => False
    | .terminated => tend w b = .terminated []
    | .undefined => tend w b = .undefined := by
  have hbl := rep_blank hb
  obtain ⟨root, ex⟩ := w
  simp only at h
  cases h with
  | known h =>
    have : b.isEmpty = false := by
      cases b with
      | nil => exact absurd (hbl.2 rfl) h
      | cons => rfl
    exact ⟨b, by simp [tend, this], hb⟩
  | gone h => have := hbl.1 h; subst this; exact ⟨[], by simp [tend, populate, prune], hb⟩
  | file h ht =>
    have := hbl.1 h; subst this
    cases hx : Entry.time _ with
    | none => exact absurd hx ht
    | some t => simp [tend, populate, hx]
  | fileUnreadable h ht => have := hbl.1 h; subst this; simp [tend, populate, ht]
  | learnt h hl hm =>
    have := hbl.1 h; subst this
    obtain ⟨b', h1, h2⟩ := learns_fill hm hb
    exact ⟨b', by simp [tend, populate, listed_iterate hl, h1], h2⟩
  | stopped h hl hm =>
    have := hbl.1 h; subst this
    obtain ⟨b', h1, h2⟩ := learns_fill hm hb
    simp [tend, populate, listed_iterate hl, h1]
  | unreadable h hl he ht =>
    have := hbl.1 h; subst this
    simp [tend, populate, listed_iterate hl, fill_fails he ht]

private theorem first_total (m : Mem) (r : Root) : ∃ m' f, First m r m' f := by
  rcases Classical.em (Blank m) with h | h
  · cases r with
    | missing => exact ⟨_, _, .gone h⟩
    | single e =>
      cases ht : e.time with
      | none => exact ⟨_, _, .fileUnreadable h ht⟩
      | some t => exact ⟨_, _, .file h (by simp [ht])⟩
    | dir items rt =>
      obtain ⟨es, b, hl⟩ := listed_total items
      rcases learns_total rt es m with ⟨m', hm⟩ | ⟨rfl, e, he, ht⟩
      · cases b with
        | false => exact ⟨_, _, .learnt h hl hm⟩
        | true => exact ⟨_, _, .stopped h hl hm⟩
      · exact ⟨_, _, .unreadable h hl he ht⟩
  · exact ⟨_, _, .known h⟩

private theorem second_scan {b : Bucket} {m m' : Mem} {w : World} {x : List Ev} {f : Fate} (hb : Rep b m) (h : Second m w.root x m' f) :
    match f with
    | .goes => ∃ b', scan w b = .done b' x true ∧ Rep b' m'
    | .failed => x = [] ∧ ∃ b', scan w b = .done b' [] false
    | .terminated => scan w b = .terminated x
    | .undefined => False := by
  obtain ⟨root, ex⟩ := w
  simp only at h
  cases h with
  | gone => exact ⟨rfl, b, rfl⟩
  | file hr h =>
    obtain ⟨h1, h2, h3⟩ := sees_scan hb h
    exact ⟨_, by simp only [scan, h2, h3, hr], h1⟩
  | noFile hr => exact ⟨rfl, b, by simp [scan, scanFile, hr]⟩
  | listed hl h =>
    obtain ⟨h1, h2⟩ := seesAll_scan h hb
    exact ⟨_, by simp [scan, listed_iterate hl, h2], h1⟩
  | stopped hl h =>
    obtain ⟨h1, h2⟩ := seesAll_scan h hb
    simp [scan, listed_iterate hl, h2]

private theorem second_total (m : Mem) (r : Root) : ∃ x m' f, Second m r x m' f := by
  cases r with
  | missing => exact ⟨_, _, _, .gone⟩
  | single e =>
    cases hr : e.regular with
    | false => exact ⟨_, _, _, .noFile hr⟩
    | true => obtain ⟨x, m', h⟩ := sees_total m e; exact ⟨_, _, _, .file hr h⟩
  | dir items rt =>
    obtain ⟨es, b, hl⟩ := listed_total items
    obtain ⟨x, m', h⟩ := seesAll_total es m
    cases b with
    | false => exact ⟨_, _, _, .listed hl h⟩
    | true => exact ⟨_, _, _, .stopped hl h⟩

private def Agrees (w : Watch) (evs : List Ev) (m : Mem) (f : Fate) : Prop :=
  w.out = evs ∧ fateOf w = f ∧ ∀ b o, w = .going b o → Rep b m

private theorem watch_snoc (ps : List (World × World)) (q : World × World) : watch (ps ++ [q]) = pass (watch ps) q.1 q.2 := by
  simp [watch]

private theorem story_agrees {ps : List (World × World)} {evs : List Ev} {m : Mem} {f : Fate} (h : Story ps evs m f) : Agrees (watch ps) evs m f := by
  induction h with
  | start h => exact ⟨rfl, rfl, fun b o e => by injection e with e _; subst e; intro p; rw [h p]; rfl⟩
  | over h hf ih =>
    obtain ⟨h1, h2, h3⟩ := ih
    rw [watch_snoc]
    cases hw : watch _ with
    | going b o => rw [hw] at h2; exact absurd h2.symm hf
    | _ => rw [hw] at h1 h2; exact ⟨h1, h2, by intro b o e; cases e⟩
  | first h h1 hf ih =>
    obtain ⟨g1, g2, g3⟩ := ih
    rw [watch_snoc]
    cases hw : watch _ with
    | going b o =>
      rw [hw] at g1
      have := first_tend (g3 b o hw) h1
      rename_i f q
      cases f with
      | goes => exact absurd rfl hf
      | failed => exact this.elim
      | terminated => simp only at this; simp only [pass, this]; exact ⟨by simpa [Watch.out] using g1, rfl, by intro b o e; cases e⟩
      | undefined => simp only at this; simp only [pass, this]; exact ⟨by simpa [Watch.out] using g1, rfl, by intro b o e; cases e⟩
    | _ => rw [hw] at g2; cases g2
  | pass h h1 h2 ih =>
    obtain ⟨g1, g2, g3⟩ := ih
    rw [watch_snoc]
    cases hw : watch _ with
    | going b o =>
      rw [hw] at g1
      simp only [Watch.out] at g1
      obtain ⟨b1, k1, k2⟩ := first_tend (g3 b o hw) h1
      have := second_scan k2 h2
      rename_i f q
      cases f with
      | goes =>
        obtain ⟨b2, k3, k4⟩ := this
        simp only [Model.Warthog.pass, k1, k3]
        exact ⟨by simp [Watch.out, g1], rfl, by intro b o e; injection e with e _; subst e; exact k4⟩
      | failed =>
        obtain ⟨rfl, b2, k3⟩ := this
        simp only [Model.Warthog.pass, k1, k3]
        exact ⟨by simp [Watch.out, g1], rfl, by intro b o e; cases e⟩
      | terminated =>
        simp only at this
        simp only [Model.Warthog.pass, k1, this]
        exact ⟨by simp [Watch.out, g1], rfl, by intro b o e; cases e⟩
      | undefined => exact this.elim
    | _ => rw [hw] at g2; cases g2

/-- C133: whatever the file system answers in however many passes, what the callback gets and what becomes of the watch is
the one story told by `Spec/WarthogExact.lean`: there is one, -/
theorem C133_story (ps : List (World × World)) : ∃ m, Story ps (watch ps).out m (fateOf (watch ps)) := by
  have key : ∀ n, ∀ ps : List (World × World), ps.length = n → ∃ evs m f, Story ps evs m f := by
    intro n
    induction n with
    | zero => intro ps h; rw [List.length_eq_zero_iff.1 h]; exact ⟨[], fun _ => none, .goes, .start (fun _ => rfl)⟩
    | succ n ih =>
      intro ps h
      have hne : ps ≠ [] := by intro e; rw [e] at h; simp at h
      obtain ⟨evs, m, f, hs⟩ := ih ps.dropLast (by simp [h])
      rw [← List.dropLast_concat_getLast hne]
      generalize ps.getLast hne = q
      cases f with
      | goes =>
        obtain ⟨m1, f1, h1⟩ := first_total m q.1.root
        by_cases hf : f1 = .goes
        · subst hf
          obtain ⟨x, m2, f2, h2⟩ := second_total m1 q.2.root
          exact ⟨_, _, _, .pass hs h1 h2⟩
        · exact ⟨_, _, _, .first hs h1 hf⟩
      | failed => exact ⟨_, _, _, .over hs (by simp)⟩
      | terminated => exact ⟨_, _, _, .over hs (by simp)⟩
      | undefined => exact ⟨_, _, _, .over hs (by simp)⟩
  obtain ⟨evs, m, f, h⟩ := key _ ps rfl
  obtain ⟨h1, h2, _⟩ := story_agrees h
  exact ⟨m, by rw [h1, h2]; exact h⟩

/-- C133: and only one: every story of these answers ends with these events and this fate. -/
theorem C133_only (ps : List (World × World)) (evs : List Ev) (m : Mem) (f : Fate) (h : Story ps evs m f) :
    (watch ps).out = evs ∧ fateOf (watch ps) = f := by
  obtain ⟨h1, h2, _⟩ := story_agrees h; exact ⟨h1, h2⟩

private def fileW (p : Str) (t : Option Time) : Entry := ⟨p, true, t⟩
private def dirW (items : List Item) : World := ⟨.dir items (some 9), fun _ => true⟩

/-- Met: a file whose time cannot be read is remembered with the time of the directory, so it is told as modified when its time
can be read, and as destroyed when it cannot; a directory that may not be entered ends the program, after what came before it was told. -/
example : ∃ m, Story [(dirW [.plain (fileW b!"/r/a" none)], dirW [.plain (fileW b!"/r/a" (some 1))]),
      (dirW [], dirW [.plain (fileW b!"/r/a" none), .plain (fileW b!"/r/b" (some 2)), .locked ⟨b!"/r/d", false, none⟩, .plain (fileW b!"/r/e" (some 3))])]
    [⟨b!"/r/a", .modify, .file, none⟩, ⟨b!"/r/a", .destroy, .file, none⟩, ⟨b!"/r/b", .create, .file, none⟩] m .terminated :=
  C133_story _

end Verif.Props
