import Verif.Lemmas.Fanotify5
import Verif.Spec.FKernel
/-! The fanotify back end on the kernel of `Model/FKernel.lean`: reading one or two records, undisturbed. -/
namespace Verif.Lemmas.FKer
open Verif Verif.Model Verif.Model.Fa Verif.Model.FKer Verif.Spec Verif.Spec.FKer Verif.Lemmas.Fa

theorem clip_ok (p : Str) : clip p ≠ [] ∧ (clip p).length ≤ 3839 := by
  unfold clip
  split
  · rename_i h
    simp only [Bool.and_eq_true, bne_iff_ne, ne_eq, decide_eq_true_eq] at h
    exact h
  · exact ⟨by decide, by decide⟩

theorem clip_eq {p : Str} (h1 : p ≠ []) (h2 : p.length ≤ 3839) : clip p = p := by
  unfold clip
  rw [if_pos (by simp [h1, h2])]

theorem sound (rf : Bool) : Fa.Sound (sys rf) where
  err := by
    intro w h
    simp only [sys]
    split <;> simp
  link := by
    intro w h _
    exact ⟨_, rfl, clip_ok _⟩

/-- What always holds of the kernel. -/
structure Inv (k : K) : Prop where
  handles : (k.dirs.map (·.1)).Nodup
  paths : (k.dirs.map (·.2)).Nodup
  short : ∀ e ∈ k.dirs, e.1.length ≤ 128 ∧ e.2 ≠ [] ∧ e.2.length ≤ 3829
  past : ∀ e ∈ k.dirs, e ∈ k.past
  marked : ∀ h ∈ k.marked, h ∈ k.past.map (·.1)

theorem lookup_of_mem {l : List (Handle × Str)} (hn : (l.map (·.1)).Nodup) {h : Handle} {p : Str} (hm : (h, p) ∈ l) :
    l.lookup h = some p := by
  induction l with
  | nil => cases hm
  | cons e l ih =>
    rw [List.map_cons, List.nodup_cons] at hn
    rw [List.lookup_cons]
    rcases List.mem_cons.1 hm with rfl | hm
    · simp
    · split
      · rename_i hb
        simp only [beq_iff_eq] at hb
        exact absurd (List.mem_map.2 ⟨_, hm, hb⟩) hn.1
      · exact ih hn.2 hm

theorem lookup_mem' {l : List (Handle × Str)} {h : Handle} {p : Str} (hl : l.lookup h = some p) : (h, p) ∈ l := by
  induction l with
  | nil => cases hl
  | cons e l ih =>
    rw [List.lookup_cons] at hl
    split at hl
    · rename_i hb
      simp only [beq_iff_eq] at hb
      injection hl with hl
      subst hl; subst hb
      exact List.mem_cons_self
    · exact List.mem_cons_of_mem _ (ih hl)

theorem handleOf_mem {k : K} {d : Str} {h : Handle} (hh : handleOf k d = some h) : (h, d) ∈ k.dirs := by
  unfold handleOf at hh
  rw [Option.map_eq_some_iff] at hh
  obtain ⟨e, he, rfl⟩ := hh
  have h1 := List.find?_some he
  have h2 := List.mem_of_find?_eq_some he
  simp only [beq_iff_eq] at h1
  subst h1
  exact h2

theorem handleOf_of_mem {k : K} (hn : (k.dirs.map (·.2)).Nodup) {d : Str} {h : Handle} (hm : (h, d) ∈ k.dirs) :
    handleOf k d = some h := by
  unfold handleOf
  have : ∀ (l : List (Handle × Str)), (l.map (·.2)).Nodup → (h, d) ∈ l → l.find? (fun e => e.2 == d) = some (h, d) := by
    intro l
    induction l with
    | nil => intro _ hm; cases hm
    | cons e l ih =>
      intro hn hm
      rw [List.map_cons, List.nodup_cons] at hn
      rw [List.find?_cons]
      rcases List.mem_cons.1 hm with rfl | hm
      · simp
      · have hne : (e.2 == d) = false := by
          simp only [beq_eq_false_iff_ne, ne_eq]
          intro hx
          exact hn.1 (List.mem_map.2 ⟨_, hm, hx.symm⟩)
        rw [hne]
        exact ih hn.2 hm
  rw [this k.dirs hn hm]
  rfl

theorem there_iff (k : K) (p : Str) : there k p = true ↔ ∃ h, (h, p) ∈ k.dirs := by
  unfold there
  simp only [List.any_eq_true, beq_iff_eq]
  constructor
  · rintro ⟨⟨h, q⟩, h1, rfl⟩; exact ⟨h, h1⟩
  · rintro ⟨h, h1⟩; exact ⟨_, h1, rfl⟩

theorem handleOf_none {k : K} {d : Str} (h : there k d = false) : handleOf k d = none := by
  cases hh : handleOf k d with
  | none => rfl
  | some x =>
    have : there k d = true := (there_iff k d).2 ⟨x, handleOf_mem hh⟩
    rw [h] at this; cases this

theorem handleOf_some {k : K} {d : Str} (h : there k d = true) : ∃ x, handleOf k d = some x := by
  cases hh : handleOf k d with
  | some x => exact ⟨x, rfl⟩
  | none =>
    unfold handleOf at hh
    rw [Option.map_eq_none_iff, List.find?_eq_none] at hh
    obtain ⟨x, hx⟩ := (there_iff k d).1 h
    exact absurd (hh _ hx) (by simp)

/-! ## Records -/

/-- The effect a change is reported with. -/
def eff : Kind → EffectType
  | .create => .create | .delete => .destroy | .modify => .modify | .moveFrom => .rename | .moveTo => .rename

def maskOf (kind : Kind) (od : Bool) : BitVec 64 := if od then kind.mask ||| 0x40000000#64 else kind.mask

theorem mask_bits (kind : Kind) (od : Bool) :
    (maskOf kind od).getLsbD 1 = decide (kind = .modify) ∧ (maskOf kind od).getLsbD 6 = decide (kind = .moveFrom) ∧
    (maskOf kind od).getLsbD 7 = decide (kind = .moveTo) ∧ (maskOf kind od).getLsbD 8 = decide (kind = .create) ∧
    (maskOf kind od).getLsbD 9 = decide (kind = .delete) ∧ (maskOf kind od).getLsbD 14 = false ∧
    (maskOf kind od).getLsbD 30 = od := by
  cases kind <;> cases od <;> decide

variable (h : Handle) (kind : Kind) (n : Str) (od : Bool) (who : Who)

theorem recOf_ondir : (recOf h kind n od who).onDir = od := (mask_bits kind od).2.2.2.2.2.2
theorem recOf_over : (recOf h kind n od who).overflow = false := (mask_bits kind od).2.2.2.2.2.1
theorem recOf_created : (recOf h kind n od who).created = decide (kind = .create) := (mask_bits kind od).2.2.2.1
theorem recOf_deleted : (recOf h kind n od who).deleted = decide (kind = .delete) := (mask_bits kind od).2.2.2.2.1
theorem recOf_modified : (recOf h kind n od who).modified = decide (kind = .modify) := (mask_bits kind od).1
theorem recOf_from : (recOf h kind n od who).movedFrom = decide (kind = .moveFrom) := (mask_bits kind od).2.1
theorem recOf_to : (recOf h kind n od who).movedTo = decide (kind = .moveTo) := (mask_bits kind od).2.2.1

theorem recOf_effect : (recOf h kind n od who).effect = eff kind := by
  unfold FRec.effect
  rw [recOf_created, recOf_deleted, recOf_modified, recOf_from, recOf_to]
  cases kind <;> rfl

theorem recOf_ptype : (recOf h kind n od who).ptype = if od then .dir else .file := by
  unfold FRec.ptype
  rw [recOf_ondir]

variable {h kind n od who}

theorem contains_all (n : Str) : (!n.contains 0 && !n.contains 47) = n.all (fun c => c != 0 && c != 47) := by
  induction n with
  | nil => rfl
  | cons c n ih =>
    rw [List.contains_cons, List.contains_cons, List.all_cons, ← ih, Bool.beq_comm (a := 0), Bool.beq_comm (a := 47)]
    simp only [bne]
    cases (c == 0) <;> cases (c == 47) <;> cases (n.contains 0) <;> cases (n.contains 47) <;> rfl

theorem okName_iff (n : Str) : okName n = legalName n := by
  unfold okName legalName
  have h1 : (n != []) = decide (0 < n.length) := by cases n <;> simp
  rw [h1, ← contains_all]
  simp only [bne, Bool.not_or, Bool.and_assoc]

theorem okName_facts {n : Str} (h : okName n = true) : n ≠ [] ∧ n.length ≤ 255 ∧ (0 : UInt8) ∉ n ∧ n ≠ b!"." := by
  unfold okName at h
  simp only [Bool.and_eq_true, bne_iff_ne, ne_eq, decide_eq_true_eq, Bool.not_eq_true', List.contains_eq_mem,
    decide_eq_false_iff_not] at h
  exact ⟨h.1.1.1.1.1, h.1.1.1.1.2, h.1.1.1.2, h.1.2⟩

theorem recOf_wf {h : Handle} {kind : Kind} {n : Str} {od : Bool} {who : Who} (hn : okName n = true) : (recOf h kind n od who).WF where
  fsid := rfl
  noZero := (okName_facts hn).2.2.1
  short := (okName_facts hn).2.1
  term := by show 0 < 4 - (h.length + n.length) % 4; omega
  ovf := by intro hx; rw [recOf_over] at hx; cases hx

theorem recOf_len {h : Handle} {kind : Kind} {n : Str} {od : Bool} {who : Who} (hn : okName n = true) (hh : h.length ≤ 128)
    (hw : who.extra.length ≤ 200) : (recOf h kind n od who).bytes.length ≤ 700 := by
  rw [rec_length, body_info (recOf_over _ _ _ _ _)]
  have := (okName_facts hn).2.1
  simp only [FRec.info, recOf, List.length_append, List.length_cons, List.length_nil, le32_length, List.length_replicate]
  omega

/-! ## Undisturbed system calls -/

variable {rf : Bool} {w : World}

theorem resolve_calm (hs : w.sched = []) (r : FRec) {p : Str} (hl : w.k.dirs.lookup r.handle = some p) (h1 : p ≠ [])
    (h2 : p.length ≤ 3829) (hn : r.name ≠ b!".") :
    Fa.resolve (sys rf) r w = (some (p ++ b!"/" ++ r.name), { w with cur := r.handle }) := by
  have ht : tick w = (false, w) := by unfold tick; rw [hs]
  have ht2 : tick { w with cur := r.handle } = (false, { w with cur := r.handle }) := by unfold tick; simp only [hs]
  unfold Fa.resolve
  simp only [sys, ht, hl, ht2, linkOf, clip_eq h1 (by omega : p.length ≤ 3839)]
  rw [if_neg (by decide), if_neg hn]

theorem mark_calm (hs : w.sched = []) {p : Str} {h : Handle} (hh : handleOf w.k p = some h) :
    Fa.markSpec (sys rf) p w = ([], { w with k := { w.k with
      marked := if w.k.marked.contains h then w.k.marked else h :: w.k.marked } }) := by
  have ht : tick w = (false, w) := by unfold tick; rw [hs]
  have hth : there w.k p = true := (there_iff _ _).2 ⟨h, handleOf_mem hh⟩
  unfold Fa.markSpec
  simp only [sys, ht, hth, hh, if_true, Bool.false_eq_true, if_false]

/-- A read with nothing going on meanwhile. -/
def calmRead (rf : Bool) (st : Fa.St World) : Outcome (Fa.St World) := exec rf st (.read st.sys.k.queue.length [])

theorem calmRead_run {st : Fa.St World} (hl : st.buf.length = 4096) (hb : FBatch st.sys.k.queue) (h4 : Roomy st.sys.k.queue)
    (hn : NoSwap st.sys.k.queue) {o : List (Ev × World)} {w' : World}
    (hr : Fa.run (sys rf) st.sys.k.queue { st.sys with k := { st.sys.k with queue := [] }, sched := [] } = (o, w', .pending)) :
    ∃ st', calmRead rf st = .ok st' ∧ st'.sys = w' ∧ st'.out = st.out ++ o ∧ st'.buf.length = 4096 := by
  unfold calmRead exec
  simp only [List.take_length, List.drop_length]
  rw [if_pos (by simpa [bufLen] using hb.fits)]
  have := recv_run (sys rf) (sound rf) _ hb h4 hn { st with sys := { st.sys with k := { st.sys.k with queue := [] }, sched := [] } } hl
  simp only [hr] at this
  simp only [this, Outcome.bind_ok]
  rw [if_pos (by decide)]
  refine ⟨_, rfl, rfl, rfl, ?_⟩
  have := hb.fits
  simp only [List.length_append, List.length_drop]
  omega

theorem read_none {st : Fa.St World} (hl : st.buf.length = 4096) (hq : st.sys.k.queue = []) :
    ∃ st', calmRead rf st = .ok st' ∧ st'.sys.k = { st.sys.k with queue := [] } ∧ st'.sys.sched = [] ∧ st'.out = st.out ∧ st'.buf.length = 4096 := by
  obtain ⟨st', h1, h2, h3, h4⟩ := calmRead_run (rf := rf) (o := []) (w' := { st.sys with k := { st.sys.k with queue := [] }, sched := [] }) hl
    (by rw [hq]; exact ⟨(by intro r hr; cases hr), (by simp [fbatch])⟩) (by rw [hq]; exact .inl (by simp [fbatch])) (by rw [hq]; trivial)
    (by rw [hq]; exact run_nil _ _)
  exact ⟨st', h1, by rw [h2], by rw [h2], by simpa using h3, h4⟩

/-- Reading one record. -/
theorem read_one {st : Fa.St World} (hI : Inv st.sys.k) (hl : st.buf.length = 4096) {h : Handle} {d n : Str} {kind : Kind} {od : Bool} {who : Who}
    (hn : okName n = true) (hx : who.extra.length ≤ 200) (hm : (h, d) ∈ st.sys.k.dirs)
    (hq : st.sys.k.queue = [recOf h kind n od who]) (hnew : kind = .create → od = true → ∃ h', handleOf st.sys.k (child d n) = some h') :
    ∃ st', calmRead rf st = .ok st' ∧ st'.sys.sched = [] ∧ st'.buf.length = 4096 ∧
      fileEvents (st'.out.map Prod.fst) = fileEvents (st.out.map Prod.fst) ++ [about d n (eff kind) (if od then .dir else .file)] ∧
      ((kind = .create ∧ od = true) → ∃ h', handleOf st.sys.k (child d n) = some h' ∧
        st'.sys.k = { st.sys.k with queue := [], marked := if st.sys.k.marked.contains h' then st.sys.k.marked else h' :: st.sys.k.marked }) ∧
      (¬ (kind = .create ∧ od = true) → st'.sys.k = { st.sys.k with queue := [] }) := by
  have hsh : h.length ≤ 128 ∧ d ≠ [] ∧ d.length ≤ 3829 := hI.short _ hm
  have hb : FBatch st.sys.k.queue := by
    rw [hq]
    refine ⟨?_, ?_⟩
    · intro r hr; rw [List.mem_singleton] at hr; subst hr; exact recOf_wf hn
    · rw [fbatch_cons, List.length_append]
      have := recOf_len (kind := kind) (od := od) hn hsh.1 hx
      simp only [fbatch, List.flatMap_nil, List.length_nil]; omega
  have h4 : Roomy st.sys.k.queue := by
    refine .inr ?_
    rintro ⟨l, a, b, h1, _⟩
    rw [hq] at h1
    have := congrArg List.length h1
    simp at this
  have hsw : NoSwap st.sys.k.queue := by rw [hq]; trivial
  have hal : FAlone (recOf h kind n od who) [] := by intro _ _ h; cases h
  have hres := resolve_calm (rf := rf) (w := { st.sys with k := { st.sys.k with queue := [] }, sched := [] }) rfl (recOf h kind n od who)
    (p := d) (lookup_of_mem hI.handles hm) hsh.2.1 hsh.2.2 (okName_facts hn).2.2.2
  have hnm : (recOf h kind n od who).name = n := rfl
  have hfe : ∀ (e : Ev) (out : List (Ev × World)) (w : World), e.ptype ≠ .watcher →
      fileEvents ((out ++ [(e, w)]).map Prod.fst) = fileEvents (out.map Prod.fst) ++ [e] := by
    intro e out w he
    simp [fileEvents, he]
  have hpt : (if od = true then PathType.dir else PathType.file) ≠ .watcher := by cases od <;> simp
  by_cases hc : kind = .create ∧ od = true
  · obtain ⟨rfl, rfl⟩ := hc
    obtain ⟨h', hh'⟩ := hnew rfl rfl
    have hmk := mark_calm (rf := rf) (w := { st.sys with k := { st.sys.k with queue := [] }, sched := [], cur := h }) rfl (p := child d n) (h := h') hh'
    have hrun : ∃ w1 w2, Fa.run (sys rf) st.sys.k.queue { st.sys with k := { st.sys.k with queue := [] }, sched := [] } =
        ([(about d n .create .dir, w1)], w2, .pending) ∧ w2.sched = [] ∧
        w2.k = { st.sys.k with queue := [], marked := if st.sys.k.marked.contains h' then st.sys.k.marked else h' :: st.sys.k.marked } := by
      rw [hq, run_single _ _ (recOf_over _ _ _ _ _) hal, hres]
      simp only [recOf_created, recOf_ondir, recOf_effect, recOf_ptype, decide_true, Bool.and_self, if_true, hnm]
      have hcd : d ++ b!"/" ++ n = child d n := rfl
      rw [hcd, show (recOf h Kind.create n true who).handle = h from rfl, hmk]
      simp only [run_nil, List.nil_append]
      exact ⟨_, _, rfl, rfl, rfl⟩
    obtain ⟨w1, w2, hrun, hw1, hw2⟩ := hrun
    obtain ⟨st', g1, g2, g3, g4⟩ := calmRead_run hl hb h4 hsw hrun
    refine ⟨st', g1, by rw [g2, hw1], g4, ?_, fun _ => ⟨h', hh', by rw [g2, hw2]⟩, fun hx => absurd ⟨rfl, rfl⟩ hx⟩
    rw [g3, hfe _ _ _ (by simp [about])]
    rfl
  · have hrun : ∃ w1 w2, Fa.run (sys rf) st.sys.k.queue { st.sys with k := { st.sys.k with queue := [] }, sched := [] } =
        ([(about d n (eff kind) (if od then .dir else .file), w1)], w2, .pending) ∧ w2.sched = [] ∧
        w2.k = { st.sys.k with queue := [] } := by
      rw [hq, run_single _ _ (recOf_over _ _ _ _ _) hal, hres]
      have hcf : (decide (kind = .create) && od) = false := by
        cases kind <;> cases od <;> simp at hc ⊢
      simp only [recOf_created, recOf_ondir, recOf_effect, recOf_ptype, hcf, Bool.false_eq_true, if_false, hnm, run_nil, List.nil_append]
      exact ⟨_, _, rfl, rfl, rfl⟩
    obtain ⟨w1, w2, hrun, hw1, hw2⟩ := hrun
    obtain ⟨st', g1, g2, g3, g4⟩ := calmRead_run hl hb h4 hsw hrun
    refine ⟨st', g1, by rw [g2, hw1], g4, ?_, fun hx => absurd hx hc, fun _ => by rw [g2, hw2]⟩
    rw [g3, hfe _ _ _ (by exact hpt)]

/-- Reading both halves of a move. -/
theorem read_two {st : Fa.St World} (hI : Inv st.sys.k) (hl : st.buf.length = 4096) {h1 h2 : Handle} {d1 n1 d2 n2 : Str} {od : Bool} {who : Who}
    (hn1 : okName n1 = true) (hn2 : okName n2 = true) (hx : who.extra.length ≤ 200)
    (hm1 : (h1, d1) ∈ st.sys.k.dirs) (hm2 : (h2, d2) ∈ st.sys.k.dirs)
    (hq : st.sys.k.queue = [recOf h1 .moveFrom n1 od who, recOf h2 .moveTo n2 od who]) :
    ∃ st', calmRead rf st = .ok st' ∧ st'.sys.sched = [] ∧ st'.buf.length = 4096 ∧ st'.sys.k = { st.sys.k with queue := [] } ∧
      fileEvents (st'.out.map Prod.fst) = fileEvents (st.out.map Prod.fst) ++
        [⟨d1 ++ b!"/" ++ n1, .rename, if od then .dir else .file, some ⟨d2 ++ b!"/" ++ n2, .rename, if od then .dir else .file⟩⟩] := by
  have hs1 : h1.length ≤ 128 ∧ d1 ≠ [] ∧ d1.length ≤ 3829 := hI.short _ hm1
  have hs2 : h2.length ≤ 128 ∧ d2 ≠ [] ∧ d2.length ≤ 3829 := hI.short _ hm2
  have hlen : (fbatch st.sys.k.queue).length ≤ 1400 := by
    rw [hq, fbatch_cons, fbatch_cons, List.length_append, List.length_append]
    have a1 := recOf_len (kind := .moveFrom) (od := od) hn1 hs1.1 hx
    have a2 := recOf_len (kind := .moveTo) (od := od) hn2 hs2.1 hx
    simp only [fbatch, List.flatMap_nil, List.length_nil]; omega
  have hb : FBatch st.sys.k.queue := by
    refine ⟨?_, by omega⟩
    intro r hr
    rw [hq] at hr
    simp only [List.mem_cons, List.not_mem_nil, or_false] at hr
    rcases hr with rfl | rfl
    · exact recOf_wf hn1
    · exact recOf_wf hn2
  have hft : (recOf h1 .moveFrom n1 od who).fromTo (recOf h2 .moveTo n2 od who) = true := by
    simp [FRec.fromTo, recOf_effect, recOf_from, recOf_to, eff]
  have hsw : NoSwap st.sys.k.queue := by rw [hq]; exact ⟨fun _ => hft, trivial⟩
  have hpt : (if od = true then PathType.dir else PathType.file) ≠ .watcher := by cases od <;> simp
  have hr2 : ∃ w', Fa.resolve2 (sys rf) (recOf h1 .moveFrom n1 od who) (recOf h2 .moveTo n2 od who)
      { st.sys with k := { st.sys.k with queue := [] }, sched := [] } = (some (d1 ++ b!"/" ++ n1, d2 ++ b!"/" ++ n2), w') ∧
      w'.k = { st.sys.k with queue := [] } ∧ w'.sched = [] := by
    have r1 : ∀ c, Fa.resolve (sys rf) (recOf h1 .moveFrom n1 od who) { st.sys with k := { st.sys.k with queue := [] }, sched := [], cur := c } =
        (some (d1 ++ b!"/" ++ n1), _) := fun c => resolve_calm rfl (recOf h1 .moveFrom n1 od who)
      (p := d1) (lookup_of_mem hI.handles hm1) hs1.2.1 hs1.2.2 (okName_facts hn1).2.2.2
    have r2 : ∀ c, Fa.resolve (sys rf) (recOf h2 .moveTo n2 od who) { st.sys with k := { st.sys.k with queue := [] }, sched := [], cur := c } =
        (some (d2 ++ b!"/" ++ n2), _) := fun c => resolve_calm rfl (recOf h2 .moveTo n2 od who)
      (p := d2) (lookup_of_mem hI.handles hm2) hs2.2.1 hs2.2.2 (okName_facts hn2).2.2.2
    unfold Fa.resolve2
    split
    · rw [r2 st.sys.cur]
      simp only
      rw [r1]
      exact ⟨_, rfl, rfl, rfl⟩
    · rw [r1 st.sys.cur]
      simp only
      rw [r2]
      exact ⟨_, rfl, rfl, rfl⟩
  obtain ⟨w', hw1, hw2, hw3⟩ := hr2
  have hrun : Fa.run (sys rf) st.sys.k.queue { st.sys with k := { st.sys.k with queue := [] }, sched := [] } =
      ([(⟨d1 ++ b!"/" ++ n1, .rename, if od then .dir else .file, some ⟨d2 ++ b!"/" ++ n2, .rename, if od then .dir else .file⟩⟩, w')], w', .pending) := by
    rw [hq, run_pair _ _ (recOf_over _ _ _ _ _) hft, hw1]
    simp only [run_nil, recOf_ptype]
  obtain ⟨st', g1, g2, g3, g4⟩ := calmRead_run hl hb (.inl (by omega)) hsw hrun
  refine ⟨st', g1, by rw [g2, hw3], g4, by rw [g2, hw2], ?_⟩
  rw [g3]
  simp [fileEvents, hpt]

end Verif.Lemmas.FKer
