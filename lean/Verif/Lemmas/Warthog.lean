import Verif.Spec.Warthog
/-! Lemmas about the portable scanner. -/
namespace Verif.Lemmas.Warthog
open Verif Verif.Model Verif.Model.Warthog Verif.Spec.Warthog

theorem get_erase (b : Bucket) (p q : Str) : (b.erase p).get q = if q = p then none else b.get q := by
  unfold Bucket.erase Bucket.get
  induction b with
  | nil => simp
  | cons x b ih =>
    by_cases hx : x.1 = p
    · rw [List.filter_cons_of_neg (by simp [hx]), ih]
      by_cases hq : q = p
      · simp [hq]
      · have : (x.1 == q) = false := by simp [hx, Ne.symm hq]
        simp [hq, this]
    · rw [List.filter_cons_of_pos (by simp [hx])]
      by_cases hxq : x.1 = q
      · have h1 : (x.1 == q) = true := by simp [hxq]
        have h2 : q ≠ p := fun h => hx (hxq.trans h)
        simp [h1, h2]
      · have h1 : (x.1 == q) = false := by simp [hxq]
        simp only [List.find?_cons, h1]
        exact ih

theorem get_set (b : Bucket) (p q : Str) (t : Time) : (b.set p t).get q = if q = p then some t else b.get q := by
  unfold Bucket.set
  have : Bucket.get ((p, t) :: b.erase p) q = if q = p then some t else (b.erase p).get q := by
    unfold Bucket.get
    by_cases h : q = p
    · simp [h]
    · have : (p == q) = false := by simp [Ne.symm h]
      simp [this, h]
  rw [this, get_erase]
  by_cases h : q = p <;> simp [h]

theorem about_append (p : Str) (a b : List Ev) : about p (a ++ b) = about p a ++ about p b := by
  induction a with
  | nil => rfl
  | cons e l ih => simp only [List.cons_append, about]; split <;> simp [ih]

theorem iterate_calm (l : List Entry) : iterate scanDirOpts (l.map .plain) = (l, false) := by
  induction l with
  | nil => rfl
  | cons e l ih => simp [iterate, ih]

/-- Paths that are not in the list are left alone. -/
theorem scanFiles_other (l : List Entry) : ∀ (b : Bucket) (p : Str), (∀ e ∈ l, e.path = p → e.regular = false) →
    (scanFiles b l).1.get p = b.get p ∧ about p (scanFiles b l).2 = [] := by
  induction l with
  | nil => intro b p _; exact ⟨rfl, rfl⟩
  | cons e l ih =>
    intro b p h
    obtain ⟨h1, h2⟩ := ih (scanFile b e).1 p (fun x hx => h x (by simp [hx]))
    have h3 : (scanFile b e).1.get p = b.get p ∧ about p (scanFile b e).2.1 = [] := by
      by_cases hp : e.path = p
      · have := h e (by simp) hp
        simp [scanFile, this, about]
      · unfold scanFile
        repeat' split
        all_goals simp [about, hp, get_set, get_erase, Ne.symm hp]
    simp only [scanFiles, about_append, h1, h2, h3.1, h3.2, List.append_nil, and_self]

/-- One calm file. -/
theorem scanFile_calm (b : Bucket) (e : Entry) (hr : e.regular = true) (t : Time) (ht : e.time = some t) :
    (scanFile b e).1.get e.path = some t ∧ about e.path (scanFile b e).2.1 = told (b.get e.path) [t] := by
  unfold scanFile
  rw [if_pos hr, ht]
  simp only
  cases h : b.get e.path with
  | none => simp [about, told, get_set]
  | some u =>
    simp only
    by_cases hu : u = t
    · subst hu; simp [about, told, h]
    · rw [if_pos hu]; simp [about, told, get_set, hu]

/-- A calm scan: each regular file of the tree is up to date afterwards, and told of as it should be. -/
theorem scanFiles_calm (l : List Entry) : ∀ (b : Bucket) (p : Str) (e : Entry) (t : Time), (l.map Entry.path).Nodup →
    e ∈ l → e.path = p → e.regular = true → e.time = some t →
    (scanFiles b l).1.get p = some t ∧ about p (scanFiles b l).2 = told (b.get p) [t] := by
  induction l with
  | nil => intro b p e t _ h; exact absurd h (by simp)
  | cons x l ih =>
    intro b p e t hn he hp hr ht
    rw [List.map_cons, List.nodup_cons] at hn
    rcases List.mem_cons.1 he with rfl | he
    · have ho := scanFiles_other l (scanFile b e).1 p (by
        intro y hy hyp
        exact absurd (List.mem_map.2 ⟨y, hy, hyp.trans hp.symm⟩) hn.1)
      have h1 := scanFile_calm b e hr t ht
      rw [hp] at h1
      simp only [scanFiles, about_append, ho.1, ho.2, h1.1, h1.2, List.append_nil, and_self]
    · have hxp : x.path ≠ p := fun h => hn.1 (List.mem_map.2 ⟨e, he, hp.trans h.symm⟩)
      obtain ⟨h1, h2⟩ := ih (scanFile b x).1 p e t hn.2 he hp hr ht
      have h3 : (scanFile b x).1.get p = b.get p ∧ about p (scanFile b x).2.1 = [] := by
        have := scanFiles_other [x] b p (by intro y hy hyp; simp only [List.mem_singleton] at hy; subst hy; exact absurd hyp hxp)
        simpa [scanFiles] using this
      rw [h3.1] at h2
      simp only [scanFiles, about_append, h1, h2, h3.2, List.nil_append, and_self]

theorem fileTime_some {d : CalmDir} {p : Str} {t : Time} (h : d.fileTime p = some t) :
    ∃ e ∈ d.entries, e.path = p ∧ e.regular = true ∧ e.time = some t := by
  unfold CalmDir.fileTime at h
  split at h
  · rename_i e he
    have h1 := List.mem_of_find?_eq_some he
    have h2 := List.find?_some he
    simp only [Bool.and_eq_true, beq_iff_eq] at h2
    exact ⟨e, h1, h2.1, h2.2, h⟩
  · exact absurd h (by simp)

theorem fileTime_none {d : CalmDir} {p : Str} (h : d.fileTime p = none) : ∀ e ∈ d.entries, e.path = p → e.regular = false := by
  unfold CalmDir.fileTime at h
  intro e he hp
  cases hr : e.regular with
  | false => rfl
  | true =>
    split at h
    · rename_i x hx
      have := d.timed x (List.mem_of_find?_eq_some hx)
      rw [h] at this
      exact absurd this (by simp)
    · rename_i hx
      have := List.find?_eq_none.1 hx e he
      simp [hp, hr] at this

/-- A calm scan, as far as one path is concerned. -/
theorem scan_about (d : CalmDir) (ex : Str → Bool) (b : Bucket) (p : Str) :
    ∃ b' evs, scan (d.world ex) b = .done b' evs true ∧
      about p evs = told (b.get p) (seenTimes p [d]) ∧
      b'.get p = (match d.fileTime p with | some t => some t | none => b.get p) := by
  refine ⟨(scanFiles b d.entries).1, (scanFiles b d.entries).2, ?_, ?_, ?_⟩
  · simp [scan, CalmDir.world, iterate_calm]
  · cases h : d.fileTime p with
    | none =>
      rw [(scanFiles_other _ b p (fileTime_none h)).2]
      simp [seenTimes, h, told]
    | some t =>
      obtain ⟨e, h1, h2, h3, h4⟩ := fileTime_some h
      rw [(scanFiles_calm _ b p e t d.distinct h1 h2 h3 h4).2]
      simp [seenTimes, h]
  · cases h : d.fileTime p with
    | none => exact (scanFiles_other _ b p (fileTime_none h)).1
    | some t =>
      obtain ⟨e, h1, h2, h3, h4⟩ := fileTime_some h
      exact (scanFiles_calm _ b p e t d.distinct h1 h2 h3 h4).1

/-- A scan never empties the bucket when all times can be read. -/
theorem set_ne (b : Bucket) (p : Str) (t : Time) : b.set p t ≠ [] := by simp [Bucket.set]

theorem scanFiles_ne (l : List Entry) : ∀ (b : Bucket), (∀ e ∈ l, e.time.isSome = true) → b ≠ [] → (scanFiles b l).1 ≠ [] := by
  induction l with
  | nil => intro b _ h; exact h
  | cons e l ih =>
    intro b ht hb
    refine ih (scanFile b e).1 (fun x hx => ht x (by simp [hx])) ?_
    have := ht e (by simp)
    cases h : e.time with
    | none => rw [h] at this; exact absurd this (by simp)
    | some t =>
      unfold scanFile
      rw [h]
      repeat' split
      all_goals first | exact hb | exact set_ne _ _ _ | (rename_i hh; simp at hh)

theorem fill_calm (l : List Entry) : ∀ (b : Bucket) (rt : Option Time), (∀ e ∈ l, e.time.isSome = true) →
    ∃ b', fill b rt l = some b' ∧ (b ≠ [] ∨ l ≠ [] → b' ≠ []) ∧
      (∀ p, (∀ e ∈ l, e.path ≠ p) → b'.get p = b.get p) := by
  induction l with
  | nil => intro b rt _; exact ⟨b, rfl, by simp, fun _ _ => rfl⟩
  | cons e l ih =>
    intro b rt ht
    have := ht e (by simp)
    cases h : e.time with
    | none => rw [h] at this; exact absurd this (by simp)
    | some t =>
      obtain ⟨b', h1, h2, h3⟩ := ih (b.set e.path t) rt (fun x hx => ht x (by simp [hx]))
      refine ⟨b', by simp [fill, h, h1], fun _ => h2 (.inl (set_ne _ _ _)), fun p hp => ?_⟩
      rw [h3 p (fun x hx => hp x (by simp [hx])), get_set, if_neg (Ne.symm (hp e (by simp)))]

theorem fill_get (l : List Entry) : ∀ (b : Bucket) (rt : Option Time) (b' : Bucket), (∀ e ∈ l, e.time.isSome = true) →
    (l.map Entry.path).Nodup → fill b rt l = some b' → ∀ e ∈ l, b'.get e.path = e.time := by
  induction l with
  | nil => intro b rt b' _ _ _ e he; exact absurd he (by simp)
  | cons x l ih =>
    intro b rt b' ht hn hf e he
    rw [List.map_cons, List.nodup_cons] at hn
    have hx := ht x (by simp)
    cases h : x.time with
    | none => rw [h] at hx; exact absurd hx (by simp)
    | some t =>
      simp only [fill, h] at hf
      rcases List.mem_cons.1 he with rfl | he
      · obtain ⟨b2, h1, _, h3⟩ := fill_calm l (b.set e.path t) rt (fun y hy => ht y (by simp [hy]))
        rw [h1] at hf
        injection hf with hf
        rw [← hf, h3 e.path (fun y hy hp => hn.1 (List.mem_map.2 ⟨y, hy, hp⟩)), get_set, if_pos rfl, h]
      · exact ih _ rt b' (fun y hy => ht y (by simp [hy])) hn.2 hf e he

/-- The first half of a pass over a calm tree. -/
theorem tend_calm (d : CalmDir) (ex : Str → Bool) (b : Bucket) :
    ∃ b', tend (d.world ex) b = .done b' [] true ∧ (b ≠ [] → b' = b) ∧ (b ≠ [] ∨ d.entries ≠ [] → b' ≠ []) ∧
      (b = [] → (∀ e ∈ d.entries, b'.get e.path = e.time) ∧ ∀ p, (∀ e ∈ d.entries, e.path ≠ p) → b'.get p = none) := by
  by_cases hb : b = []
  · subst hb
    obtain ⟨b', h1, h2, h3⟩ := fill_calm d.entries [] (some 0) d.timed
    have h4 := fill_get d.entries [] (some 0) b' d.timed d.distinct h1
    refine ⟨b', ?_, by simp, by simpa using h2, fun _ => ⟨h4, h3⟩⟩
    have h1' : fill ([] : Bucket) (some 0) (iterate scanDirOpts (List.map Item.plain d.entries)).1 = some b' := by
      rw [iterate_calm]; exact h1
    simp only [tend, List.isEmpty_nil, if_true, populate, CalmDir.world, h1']
    rw [iterate_calm]
    rfl
  · have : b.isEmpty = false := by cases b with
      | nil => exact absurd rfl hb
      | cons _ _ => rfl
    exact ⟨b, by simp [tend, this], fun _ => rfl, fun _ => hb, fun h => absurd h hb⟩

/-- The state after passes over calm trees, with a bucket that is not empty to begin with. -/
theorem told_append (o : Option Time) (a b : List Time) : told o (a ++ b) = told o a ++ told (a.getLast?.or o) b := by
  induction a generalizing o with
  | nil => cases o <;> simp [told]
  | cons t a ih =>
    have hl : ((t :: a).getLast?).or o = a.getLast?.or (some t) := by
      cases a with
      | nil => simp
      | cons x a =>
        rw [List.getLast?_cons_cons]
        cases hx : (x :: a).getLast? with
        | none => simp at hx
        | some y => rfl
    rw [hl]
    cases o with
    | none => simp only [List.cons_append, told, ih]
    | some u =>
      simp only [List.cons_append, told, ih]
      split
      · rename_i h; rw [h]
      · rfl

theorem run_calm (ex : Str → Bool) (p : Str) : ∀ (ps : List (CalmDir × CalmDir)) (b : Bucket) (out : List Ev), b ≠ [] →
    ∃ b' out', (passes ex ps).foldl (fun s q => pass s q.1 q.2) (.going b out) = .going b' out' ∧ b' ≠ [] ∧
      about p out' = about p out ++ told (b.get p) (seenTimes p (ps.map Prod.snd)) := by
  intro ps
  induction ps with
  | nil => intro b out hb; exact ⟨b, out, rfl, hb, by simp [seenTimes, told]⟩
  | cons dd ps ih =>
    obtain ⟨d, d'⟩ := dd
    intro b out hb
    obtain ⟨b1, h1, h2, _, _⟩ := tend_calm d ex b
    have hb1 := h2 hb
    subst hb1
    obtain ⟨b2, evs, h3, h4, h5⟩ := scan_about d' ex b1 p
    have hne : b2 ≠ [] := by
      have hs : scan (d'.world ex) b1 = .done (scanFiles b1 d'.entries).1 (scanFiles b1 d'.entries).2 true := by
        simp [scan, CalmDir.world, iterate_calm]
      rw [hs] at h3
      injection h3 with h3 _ _
      rw [← h3]
      exact scanFiles_ne _ _ d'.timed hb
    have hp : pass (.going b1 out) (d.world ex) (d'.world ex) = .going b2 (out ++ [] ++ evs) := by
      simp only [pass, h1, h3]
    obtain ⟨b3, out3, h6, h7, h8⟩ := ih b2 (out ++ [] ++ evs) hne
    refine ⟨b3, out3, ?_, h7, ?_⟩
    · simp only [passes, List.map_cons, List.foldl_cons, hp]
      exact h6
    · rw [h8]
      simp only [List.append_nil, about_append, h4, List.append_assoc, List.map_cons]
      congr 1
      cases hd : d'.fileTime p with
      | none => simp [seenTimes, hd, told, h5]
      | some t =>
        have : seenTimes p (d' :: ps.map Prod.snd) = [t] ++ seenTimes p (ps.map Prod.snd) := by simp [seenTimes, hd]
        rw [this, told_append, h5, hd]
        simp [seenTimes, hd]

/-- A pass over calm trees goes on, whatever the bucket. -/
theorem pass_calm (ex : Str → Bool) (d d' : CalmDir) (b : Bucket) (out : List Ev) :
    ∃ b1 b2 evs, tend (d.world ex) b = .done b1 [] true ∧ scan (d'.world ex) b1 = .done b2 evs true ∧
      pass (.going b out) (d.world ex) (d'.world ex) = .going b2 (out ++ evs) := by
  obtain ⟨b1, h1, _, _, _⟩ := tend_calm d ex b
  obtain ⟨b2, evs, h3, _, _⟩ := scan_about d' ex b1 []
  exact ⟨b1, b2, evs, h1, h3, by simp only [pass, h1, h3, List.append_nil]⟩

theorem about_nil : ∀ (l : List Ev), (∀ p, about p l = []) → l = [] := by
  intro l h
  cases l with
  | nil => rfl
  | cons e l => have := h e.path; simp [about] at this

/-- The bucket is up to date with a tree. -/
def UpToDate (d : CalmDir) (b : Bucket) : Prop := ∀ p t, d.fileTime p = some t → b.get p = some t

theorem scan_quiet (ex : Str → Bool) (d : CalmDir) (b : Bucket) (h : UpToDate d b) :
    ∃ b', scan (d.world ex) b = .done b' [] true ∧ UpToDate d b' := by
  obtain ⟨b', evs, h1, _, _⟩ := scan_about d ex b []
  have he : evs = [] := by
    apply about_nil
    intro p
    obtain ⟨b2, evs2, h1', h2, _⟩ := scan_about d ex b p
    rw [h1] at h1'
    injection h1' with _ h1' _
    rw [h1', h2]
    cases hd : d.fileTime p with
    | none => simp [seenTimes, hd, told]
    | some t => simp [seenTimes, hd, told, h p t hd]
  subst he
  refine ⟨b', h1, ?_⟩
  intro p t hd
  obtain ⟨b2, evs2, h1', _, h3⟩ := scan_about d ex b p
  rw [h1] at h1'
  injection h1' with h1' _ _
  rw [h1', h3, hd]

theorem scan_upToDate (ex : Str → Bool) (d : CalmDir) (b b' : Bucket) (evs : List Ev)
    (h : scan (d.world ex) b = .done b' evs true) : UpToDate d b' := by
  intro p t hd
  obtain ⟨b2, evs2, h1', _, h3⟩ := scan_about d ex b p
  rw [h] at h1'
  injection h1' with h1' _ _
  rw [h1', h3, hd]

/-- A pass over a tree the bucket is up to date with says nothing. -/
theorem pass_quiet (ex : Str → Bool) (d : CalmDir) (b : Bucket) (out : List Ev) (h : UpToDate d b) :
    ∃ b', pass (.going b out) (d.world ex) (d.world ex) = .going b' out ∧ UpToDate d b' := by
  obtain ⟨b1, h1, h2, _, h4⟩ := tend_calm d ex b
  have hu : UpToDate d b1 := by
    by_cases hb : b = []
    · intro p t hd
      obtain ⟨e, he, hp, _, ht⟩ := fileTime_some hd
      rw [← hp, (h4 hb).1 e he, ht]
    · rw [h2 hb]; exact h
  obtain ⟨b', h5, h6⟩ := scan_quiet ex d b1 hu
  exact ⟨b', by simp only [pass, h1, h5, List.append_nil], h6⟩

theorem quiet_run (ex : Str → Bool) (d : CalmDir) : ∀ (n : Nat) (b : Bucket) (out : List Ev), UpToDate d b →
    ((quietPasses ex (List.replicate n d)).foldl (fun s q => pass s q.1 q.2) (.going b out)).out = out := by
  intro n
  induction n with
  | zero => intro b out _; rfl
  | succ n ih =>
    intro b out h
    obtain ⟨b', h1, h2⟩ := pass_quiet ex d b out h
    simp only [quietPasses, passes, List.replicate_succ, List.map_cons, List.foldl_cons, h1]
    exact ih b' out h2

theorem stuck_run (ps : List (World × World)) (s : Watch) (h : ∀ wt ws, pass s wt ws = s) :
    ps.foldl (fun s q => pass s q.1 q.2) s = s := by
  induction ps with
  | nil => rfl
  | cons q ps ih => simp only [List.foldl_cons, h]; exact ih

/-! ### Destructions -/

theorem tend_silent (w : World) (b : Bucket) :
    (∃ b' ok, tend w b = .done b' [] ok) ∨ tend w b = .terminated [] ∨ tend w b = .undefined := by
  unfold tend
  split
  · rename_i hb
    have hb : b = [] := by simpa using hb
    subst hb
    unfold populate
    cases w.root with
    | missing => left; exact ⟨[], true, by simp [prune]⟩
    | single e => simp only; cases e.time <;> simp
    | dir items rt =>
      simp only
      cases hf : fill ([] : Bucket) rt (iterate scanDirOpts items).1 with
      | none => simp
      | some b' =>
        simp only
        cases hi : (iterate scanDirOpts items).2 <;> simp
  · left; exact ⟨b, true, rfl⟩

theorem scanFile_destroy (b : Bucket) (e : Entry) (x : Ev) (hx : x ∈ (scanFile b e).2.1) (hd : x.effect = .destroy) :
    x.path = e.path ∧ e.regular = true ∧ e.time = none := by
  unfold scanFile at hx
  split at hx
  · rename_i hr
    split at hx
    · rename_i ht
      simp only [List.mem_singleton] at hx
      rw [hx]; exact ⟨rfl, hr, ht⟩
    · split at hx
      · simp only [List.mem_singleton] at hx; rw [hx] at hd; exact absurd hd (by simp)
      · split at hx
        · simp only [List.mem_singleton] at hx; rw [hx] at hd; exact absurd hd (by simp)
        · exact absurd hx (by simp)
  · exact absurd hx (by simp)

theorem scanFiles_destroy : ∀ (l : List Entry) (b : Bucket) (x : Ev), x ∈ (scanFiles b l).2 → x.effect = .destroy →
    ∃ e ∈ l, x.path = e.path ∧ e.regular = true ∧ e.time = none := by
  intro l
  induction l with
  | nil => intro b x hx; exact absurd hx (by simp [scanFiles])
  | cons e l ih =>
    intro b x hx hd
    simp only [scanFiles, List.mem_append] at hx
    rcases hx with hx | hx
    · exact ⟨e, by simp, scanFile_destroy b e x hx hd⟩
    · obtain ⟨y, hy, h⟩ := ih _ x hx hd
      exact ⟨y, by simp [hy], h⟩

end Verif.Lemmas.Warthog
