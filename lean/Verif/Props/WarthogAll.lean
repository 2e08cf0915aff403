import Verif.Props.Warthog
import Verif.Props.Polled
/-!
# What the scanner reports, in every case: C125
-/

namespace Verif.Props
open Verif Verif.Model Verif.Model.Warthog Verif.Spec.Warthog Verif.Lemmas.Warthog

/-- A bucket that knows these times. -/
private def Knows (b : Bucket) (k : Str → Option Time) : Prop := ∀ p, b.get p = k p

private theorem scanFiles_report (l : List Entry) : ∀ (b : Bucket) (k : Str → Option Time), (l.map Entry.path).Nodup →
    (∀ e ∈ l, e.time.isSome = true) → (∀ e ∈ l, b.get e.path = k e.path) →
    (scanFiles b l).2 = l.filterMap fun e =>
      if e.regular then
        match k e.path with
        | none => some ⟨e.path, .create, .file, none⟩
        | some u => if e.time = some u then none else some ⟨e.path, .modify, .file, none⟩
      else none := by
  induction l with
  | nil => intros; rfl
  | cons e l ih =>
    intro b k hn ht hk
    rw [List.map_cons, List.nodup_cons] at hn
    have hne : ∀ x ∈ l, x.path ≠ e.path := fun x hx hp => hn.1 (hp ▸ List.mem_map_of_mem hx)
    have hother : ∀ x ∈ l, (scanFile b e).1.get x.path = k x.path := by
      intro x hx
      have := (scanFiles_other [e] b x.path (by
        intro y hy hp
        rw [List.mem_singleton.1 hy] at hp
        exact absurd hp.symm (hne x hx))).1
      simp only [scanFiles] at this
      rw [this]; exact hk x (List.mem_cons_of_mem _ hx)
    have hi := ih (scanFile b e).1 k hn.2 (fun x hx => ht x (List.mem_cons_of_mem _ hx)) hother
    rw [scanFiles]
    simp only [hi]
    obtain ⟨t, htm⟩ := Option.isSome_iff_exists.1 (ht e (List.mem_cons_self ..))
    have hke := hk e (List.mem_cons_self ..)
    rw [List.filterMap_cons]
    cases hr : e.regular with
    | false => simp [scanFile, hr]
    | true =>
      simp only [scanFile, hr, htm, if_true, hke]
      cases hkk : k e.path with
      | none => simp
      | some u =>
        by_cases hu : u = t
        · simp [hu]
        · have : t ≠ u := fun h => hu h.symm
          simp [hu, this]

private theorem scan_report (ex : Str → Bool) (d : CalmDir) (b : Bucket) (k : Str → Option Time) (hk : Knows b k) :
    ∃ b', scan (d.world ex) b = .done b' (report k d) true ∧ Knows b' (learn k d) := by
  obtain ⟨b', evs, h1, _, _⟩ := scan_about d ex b []
  refine ⟨b', ?_, ?_⟩
  · have he : evs = report k d := by
      have h2 : scan (d.world ex) b = .done (scanFiles b d.entries).1 (scanFiles b d.entries).2 true := by
        simp [scan, CalmDir.world, iterate_calm]
      rw [h1] at h2; injection h2 with _ h2 _
      rw [h2]; exact scanFiles_report d.entries b k d.distinct d.timed (fun e _ => hk e.path)
    rw [h1, he]
  · intro p
    obtain ⟨b2, evs2, h3, _, h4⟩ := scan_about d ex b p
    rw [h1] at h3; injection h3 with h3 _ _
    rw [h3, h4, learn, hk p]
    cases d.fileTime p <;> rfl

private theorem reports_run (ex : Str → Bool) : ∀ (ps : List (CalmDir × CalmDir)) (b : Bucket) (k : Str → Option Time) (out : List Ev), b ≠ [] → Knows b k →
    ∃ b', (passes ex ps).foldl (fun s q => pass s q.1 q.2) (.going b out) = .going b' (out ++ reports k (ps.map Prod.snd)) := by
  intro ps
  induction ps with
  | nil => intro b k out _ _; exact ⟨b, by simp [passes, reports]⟩
  | cons q ps ih =>
    intro b k out hb hk
    obtain ⟨b1, h1, h2, _, _⟩ := tend_calm q.1 ex b
    rw [h2 hb] at h1
    obtain ⟨b2, h3, h4⟩ := scan_report ex q.2 b k hk
    have hb2 : b2 ≠ [] := by
      have h5 : scan (q.2.world ex) b = .done (scanFiles b q.2.entries).1 (scanFiles b q.2.entries).2 true := by
        simp [scan, CalmDir.world, iterate_calm]
      rw [h3] at h5; injection h5 with h5 _ _
      rw [h5]; exact scanFiles_ne q.2.entries b q.2.timed hb
    obtain ⟨b', h6⟩ := ih b2 (learn k q.2) (out ++ report k q.2) hb2 h4
    refine ⟨b', ?_⟩
    have hp : pass (.going b out) (q.1.world ex) (q.2.world ex) = .going b2 (out ++ report k q.2) := by
      simp only [pass, h1, h3, List.append_nil]
    simp only [passes, List.map_cons, List.foldl_cons] at h6 ⊢
    rw [hp, h6]
    simp [reports, List.append_assoc]

private theorem anyTime_mem {d : CalmDir} {e : Entry} (he : e ∈ d.entries) : d.anyTime e.path = e.time := by
  unfold CalmDir.anyTime
  have hn := d.distinct
  revert hn he
  generalize d.entries = l
  induction l with
  | nil => intro h; cases h
  | cons x l ih =>
    intro he hn
    rw [List.map_cons, List.nodup_cons] at hn
    by_cases hx : x.path = e.path
    · rcases List.mem_cons.1 he with rfl | he
      · simp
      · exact absurd (hx ▸ List.mem_map_of_mem he) hn.1
    · rcases List.mem_cons.1 he with rfl | he
      · exact absurd rfl hx
      · rw [List.find?_cons_of_neg (by simp [hx])]; exact ih he hn.2

private theorem anyTime_none {d : CalmDir} {p : Str} (h : ∀ e ∈ d.entries, e.path ≠ p) : d.anyTime p = none := by
  unfold CalmDir.anyTime
  rw [List.find?_eq_none.2 (fun e he => by simpa using h e he)]

private theorem nobody (ex : Str → Bool) (d : CalmDir) (h : ¬ ∃ e ∈ d.entries, e.regular = true) : scan (d.world ex) [] = .done [] [] true := by
  have : ∀ l : List Entry, (∀ e ∈ l, e.regular = false) → scanFiles [] l = ([], []) := by
    intro l
    induction l with
    | nil => intro _; rfl
    | cons e l ih =>
      intro hl
      simp [scanFiles, scanFile, hl e (by simp), ih (fun x hx => hl x (by simp [hx]))]
  have hd := this d.entries (fun e he => by
    cases hr : e.regular with
    | false => rfl
    | true => exact absurd ⟨e, he, hr⟩ h)
  simp [scan, CalmDir.world, iterate_calm, hd]

private theorem scanFiles_some (l : List Entry) : ∀ (b : Bucket), (∀ e ∈ l, e.time.isSome = true) → (∃ e ∈ l, e.regular = true) → (scanFiles b l).1 ≠ [] := by
  induction l with
  | nil => rintro b _ ⟨e, he, _⟩; cases he
  | cons x l ih =>
    intro b ht h
    have ht' : ∀ e ∈ l, e.time.isSome = true := fun e he => ht e (by simp [he])
    by_cases hx : x.regular = true
    · refine scanFiles_ne l (scanFile b x).1 ht' ?_
      obtain ⟨t, htm⟩ := Option.isSome_iff_exists.1 (ht x (by simp))
      unfold scanFile
      simp only [hx, htm, if_true]
      cases hb : b.get x.path with
      | none => exact set_ne _ _ _
      | some u =>
        simp only
        split
        · exact set_ne _ _ _
        · intro he; simp only at he; rw [he] at hb; simp [Bucket.get] at hb
    · obtain ⟨e, he, hr⟩ := h
      rcases List.mem_cons.1 he with rfl | he
      · exact absurd hr hx
      · exact ih _ ht' ⟨e, he, hr⟩

/-- C125: for every series of passes over trees (also ones that are empty at first, and ones that change in the middle
of a pass) the scanner hands over exactly the events of the specification, in that order, and goes on. -/
theorem C125_scanner_exact (exist : Str → Bool) (ps : List (CalmDir × CalmDir)) :
    ∃ b, watch (passes exist ps) = .going b (seriesReport ps) := by
  unfold watch
  induction ps with
  | nil => exact ⟨[], rfl⟩
  | cons q ps ih =>
    obtain ⟨d, d'⟩ := q
    rw [seriesReport]
    obtain ⟨b1, h1, _, h3, h4⟩ := tend_calm d exist []
    by_cases hd : d.entries ≠ []
    · rw [if_pos hd]
      have hb1 := h3 (.inr hd)
      have hk : Knows b1 d.anyTime := by
        intro p
        by_cases hp : ∃ e ∈ d.entries, e.path = p
        · obtain ⟨e, he, rfl⟩ := hp
          rw [(h4 rfl).1 e he, anyTime_mem he]
        · have hp' : ∀ e ∈ d.entries, e.path ≠ p := fun e he h => hp ⟨e, he, h⟩
          rw [(h4 rfl).2 p hp', anyTime_none hp']
      obtain ⟨b', h5⟩ := reports_run exist ((d, d') :: ps) b1 d.anyTime [] hb1 hk
      refine ⟨b', ?_⟩
      have htend : tend (d.world exist) b1 = .done b1 [] true := by
        obtain ⟨b2, h5, h6, _, _⟩ := tend_calm d exist b1
        rw [h5, h6 hb1]
      have hpass : pass (.going [] []) (d.world exist) (d'.world exist) = pass (.going b1 []) (d.world exist) (d'.world exist) := by
        simp only [pass, h1, htend]
      simp only [passes, List.map_cons, List.foldl_cons, List.nil_append] at h5 ⊢
      rw [hpass, h5]
    · rw [if_neg hd]
      have hnil : d.entries = [] := Classical.not_not.1 hd
      have hb1 : b1 = [] := by
        have : tend (d.world exist) [] = .done [] [] true := by
          simp [tend, populate, CalmDir.world, hnil, iterate, fill]
        rw [h1] at this; injection this
      subst hb1
      have hk : Knows [] (fun _ => none) := fun p => rfl
      obtain ⟨b2, h5, h6⟩ := scan_report exist d' [] _ hk
      have hp : pass (.going [] []) (d.world exist) (d'.world exist) = .going b2 (report (fun _ => none) d') := by
        simp only [pass, h1, h5, List.append_nil, List.nil_append]
      by_cases hr : ∃ e ∈ d'.entries, e.regular = true
      · rw [if_pos hr]
        have hb2 : b2 ≠ [] := by
          have h7 : scan (d'.world exist) [] = .done (scanFiles [] d'.entries).1 (scanFiles [] d'.entries).2 true := by
            simp [scan, CalmDir.world, iterate_calm]
          rw [h5] at h7; injection h7 with h7 _ _
          rw [h7]; exact scanFiles_some d'.entries [] d'.timed hr
        obtain ⟨b', h8⟩ := reports_run exist ps b2 _ (report (fun _ => none) d') hb2 h6
        refine ⟨b', ?_⟩
        simp only [passes, List.map_cons, List.foldl_cons] at h8 ⊢
        rw [hp, h8]; rfl
      · rw [if_neg hr]
        have h7 := nobody exist d' hr
        rw [h5] at h7
        injection h7 with hb he _
        simp only [passes, List.map_cons, List.foldl_cons] at ih ⊢
        rw [hp, he, hb]
        exact ih

/-- C125: what is told of one path, whatever else is in the trees: a creation when it is seen first, a modification
whenever it is seen with another write time than before, and nothing else; removals are not told. -/
theorem C125_one_path (k : Str → Option Time) (ds : List CalmDir) (p : Str) : about p (reports k ds) = told (k p) (seenTimes p ds) := by
  -- through the scanner: a bucket that knows `k` about `p` is enough
  induction ds generalizing k with
  | nil => cases h : k p <;> simp [reports, about, seenTimes, told]
  | cons d ds ih =>
    rw [reports, about_append, ih]
    have hrep : about p (report k d) = told (k p) (seenTimes p [d]) := by
      unfold report
      have hn := d.distinct
      have htm := d.timed
      have key : ∀ l : List Entry, (l.map Entry.path).Nodup → (∀ e ∈ l, e.time.isSome = true) →
          about p (l.filterMap fun e => if e.regular then
            match k e.path with
            | none => some ⟨e.path, .create, .file, none⟩
            | some u => if e.time = some u then none else some ⟨e.path, .modify, .file, none⟩
          else none) = told (k p) (match l.find? (fun e => e.path == p && e.regular) with | some e => e.time.toList | none => []) := by
        intro l
        induction l with
        | nil => intro _ _; cases h : k p <;> simp [about, told]
        | cons e l ihl =>
          intro hn ht
          rw [List.map_cons, List.nodup_cons] at hn
          have hi := ihl hn.2 (fun x hx => ht x (by simp [hx]))
          by_cases hp : e.path = p
          · have hno : l.find? (fun e => e.path == p && e.regular) = none := by
              refine List.find?_eq_none.2 (fun x hx => ?_)
              intro hc
              simp only [Bool.and_eq_true, beq_iff_eq] at hc
              exact hn.1 (by rw [hp, ← hc.1]; exact List.mem_map_of_mem hx)
            rw [hno] at hi
            have hi' : told (k p) [] = [] := by cases k p <;> rfl
            simp only [hi'] at hi
            obtain ⟨t, htt⟩ := Option.isSome_iff_exists.1 (ht e (by simp))
            cases hr : e.regular with
            | false =>
              rw [List.filterMap_cons]
              simp only [hr, Bool.false_eq_true, if_false]
              rw [List.find?_cons_of_neg (by simp [hr]), hno]
              simp only [hi']
              exact hi
            | true =>
              rw [List.filterMap_cons, List.find?_cons_of_pos (by simp [hr, hp])]
              simp only [hr, if_true, htt, hp, Option.toList]
              cases hk : k p with
              | none => simp [about, told, hi]
              | some u =>
                by_cases hu : u = t
                · simp [hu, told, hi]
                · have : t ≠ u := fun h => hu h.symm
                  simp [hu, this, told, about, hi]
          · rw [List.find?_cons_of_neg (by simp [hp]), ← hi, List.filterMap_cons]
            split
            · rfl
            · rename_i x hx
              have hxp : x.path = e.path := by
                split at hx
                · split at hx
                  · injection hx with hx; rw [← hx]
                  · split at hx
                    · cases hx
                    · injection hx with hx; rw [← hx]
                · cases hx
              rw [about, if_neg (by rw [hxp]; exact hp)]
      refine (key d.entries hn htm).trans ?_
      congr 1
      simp only [seenTimes, CalmDir.fileTime]
      split <;> rename_i h
      · rename_i e
        obtain ⟨t, htt⟩ := Option.isSome_iff_exists.1 (htm e (List.mem_of_find?_eq_some h))
        simp [h, htt]
      · simp [h]
    rw [hrep]
    have hs : seenTimes p (d :: ds) = seenTimes p [d] ++ seenTimes p ds := by
      simp only [seenTimes]; split <;> simp
    rw [hs, told_append]
    congr 2
    simp only [seenTimes, learn]
    cases d.fileTime p <;> simp

open Verif.Model.Poll Verif.Spec.Poll in
/-- C125, a whole life of a watch with the scanner, in every schedule of its threads: if the passes found trees whose
directories and write times can be read, the callback has got the live message, exactly the events of the
specification, and the die message. -/
theorem C125_scanner_life (dirOk : Bool) (acts : List (Act scanner)) (s : St scanner) (h : run dirOk {} acts = some s) (hw : s.w = .finished)
    (hl : Obs.cb (.live true) ∈ s.log) (exist : Str → Bool) (w0 : World) (ps : List (CalmDir × CalmDir))
    (ha : answers acts = w0 :: ps.flatMap fun q => [q.1.world exist, q.2.world exist]) :
    callbacks s.log = .live true :: (seriesReport ps).map .ev ++ [.die true] := by
  obtain ⟨w1, ws, r, ha', _, hc, _, hf⟩ := Poll.C94_scanner_delivers_exactly dirOk acts s h hw hl
  rw [ha] at ha'
  injection ha' with _ ha'
  have hp : ∀ ps : List (CalmDir × CalmDir), pairs (ps.flatMap fun q => [q.1.world exist, q.2.world exist]) = passes exist ps := by
    intro ps
    induction ps with
    | nil => rfl
    | cons q ps ih => simp only [List.flatMap_cons, List.cons_append, List.nil_append, pairs, ih]; rfl
  obtain ⟨b, hb⟩ := C125_scanner_exact exist ps
  rw [← ha', hp, hb] at hc hf
  cases r with
  | true => exact hc
  | false => have := hf rfl; cases this

private def treeE : CalmDir := ⟨[], by decide, by decide⟩
private def treeA : CalmDir := ⟨[⟨b!"/d", false, some 3⟩, ⟨b!"/d/a", true, some 1⟩], by decide, by decide⟩
private def treeB : CalmDir := ⟨[⟨b!"/d", false, some 3⟩, ⟨b!"/d/a", true, some 4⟩, ⟨b!"/c", true, some 5⟩], by decide, by decide⟩

-- an empty tree, then files: those found first are not told, later ones are
example : seriesReport [(treeE, treeE), (treeA, treeA), (treeB, treeB), (treeE, treeE), (treeA, treeA)] =
    [⟨b!"/d/a", .modify, .file, none⟩, ⟨b!"/c", .create, .file, none⟩, ⟨b!"/d/a", .modify, .file, none⟩] := by decide +kernel
-- the same files found in the middle of a pass are told
example : seriesReport [(treeE, treeA)] = [⟨b!"/d/a", .create, .file, none⟩] := by decide +kernel

open Verif.Model.Poll Verif.Spec.Poll in
private def lifeAB : List (Act scanner) :=
  [.w, .w, .w, .cbReturn, .sys (treeE.world fun _ => true), .w] ++ [.w, .sys (treeA.world fun _ => true), .w, .w, .sys (treeA.world fun _ => true), .w] ++
  [.w, .sys (treeA.world fun _ => true), .w, .w, .sys (treeB.world fun _ => true), .w, .cbReturn, .w, .cbReturn, .w] ++ [.oClose, .o, .w, .w, .cbReturn, .w]
open Verif.Model.Poll Verif.Spec.Poll in
example : ∃ s, run true ({} : St scanner) lifeAB = some s ∧ s.w = .finished ∧ Obs.cb (.live true) ∈ s.log ∧
    answers lifeAB = treeE.world (fun _ => true) :: [(treeA, treeA), (treeA, treeB)].flatMap fun q => [q.1.world fun _ => true, q.2.world fun _ => true] :=
  ⟨_, rfl, rfl, List.mem_cons_self .., rfl⟩

end Verif.Props
