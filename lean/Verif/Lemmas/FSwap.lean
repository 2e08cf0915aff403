import Verif.Lemmas.FKernel
import Verif.Lemmas.FExact
/-! Reading the four records of an exchange, undisturbed. -/
namespace Verif.Lemmas.FKer
open Verif Verif.Model Verif.Model.Fa Verif.Model.FKer Verif.Spec Verif.Spec.FKer Verif.Lemmas.Fa

theorem told_pair {σ} (S : Fa.Sys σ) (full : Bool) (a b : FRec) (rest : List FRec) (seen : Int) (w w' : σ) (p q : Str)
    (ho : a.overflow = false) (hft : a.fromTo b = true) (hs : (a.bytes.length : Int) + b.bytes.length ≤ seen) (hf : full = false)
    (hask : Fa.ask2 S a b w = (.at p q, w')) :
    Fa.told S full (a :: b :: rest) seen w = (Fa.told S full rest (seen - a.bytes.length - b.bytes.length) w').map fun k =>
      (({ path := p, effect := .rename, ptype := a.ptype, assoc := some { path := q, effect := .rename, ptype := a.ptype } }, w') :: k.1, k.2) := by
  rw [Fa.told, if_neg (by omega), if_neg (by simp [ho])]
  simp only
  rw [if_neg (by omega), if_pos hft, if_neg (by simp [hf]), hask]

theorem told_riap {σ} (S : Fa.Sys σ) (full : Bool) (a b : FRec) (seen : Int) (w w' : σ) (p q : Str)
    (ho : a.overflow = false) (hft : a.fromTo b = false) (htf : a.toFrom b = true) (hs : (a.bytes.length : Int) + b.bytes.length = seen)
    (hb : 0 < b.bytes.length) (hask : Fa.ask2 S b a w = (.at p q, w')) :
    Fa.told S full [a, b] seen w =
      some ([({ path := p, effect := .rename, ptype := a.ptype, assoc := some { path := q, effect := .rename, ptype := a.ptype } }, w')], w', .pending) := by
  rw [Fa.told, if_neg (by omega), if_neg (by simp [ho])]
  simp only
  rw [if_neg (by omega), if_neg (by simp [hft]), if_pos htf, hask]
  simp only
  rw [Fa.told, if_pos (by omega)]
  rfl

theorem told_alone {σ} (S : Fa.Sys σ) (full : Bool) (a : FRec) (w w' : σ) (p : Str)
    (ho : a.overflow = false) (hc : a.created = false) (hask : Fa.ask S a w = (.at p, w')) :
    Fa.told S full [a] a.bytes.length w = some ([({ path := p, effect := a.effect, ptype := a.ptype }, w')], w', .pending) := by
  rw [Fa.told, if_neg (by omega), if_neg (by simp [ho])]
  simp only [hask, hc, Bool.false_and, Bool.false_eq_true, if_false]
  rw [Fa.told]
  rfl

variable {rf : Bool} {w : World}

theorem ask_calm (hs : w.sched = []) (r : FRec) {p : Str} (hl : w.k.dirs.lookup r.handle = some p) (h1 : p ≠ [])
    (h2 : p.length ≤ 3829) (hn : r.name ≠ b!".") (hnl : r.name.length ≤ 255) :
    Fa.ask (sys rf) r w = (.at (p ++ b!"/" ++ r.name), { w with cur := r.handle }) := by
  have ht : tick w = (false, w) := by unfold tick; rw [hs]
  have ht2 : tick { w with cur := r.handle } = (false, { w with cur := r.handle }) := by unfold tick; simp only [hs]
  unfold Fa.ask
  simp only [sys, ht, hl, ht2, linkOf, clip_eq h1 (by omega : p.length ≤ 3839)]
  rw [if_neg (by decide), if_neg h1, if_neg hn, List.take_of_length_le]
  simp only [List.length_append, List.length_cons, List.length_nil]; omega

theorem ask2_calm (k : K) (c : Handle) (r1 r2 : FRec) {d1 d2 : Str} (hl1 : k.dirs.lookup r1.handle = some d1) (hl2 : k.dirs.lookup r2.handle = some d2)
    (a1 : d1 ≠ []) (a2 : d2 ≠ []) (b1 : d1.length ≤ 3829) (b2 : d2.length ≤ 3829) (n1 : r1.name ≠ b!".") (n2 : r2.name ≠ b!".")
    (l1 : r1.name.length ≤ 255) (l2 : r2.name.length ≤ 255) :
    ∃ c', Fa.ask2 (sys rf) r1 r2 { k := k, sched := [], cur := c } = (.at (d1 ++ b!"/" ++ r1.name) (d2 ++ b!"/" ++ r2.name), { k := k, sched := [], cur := c' }) := by
  unfold Fa.ask2
  split
  · rw [ask_calm rfl r2 hl2 a2 b2 n2 l2]
    simp only
    rw [ask_calm rfl r1 hl1 a1 b1 n1 l1]
    exact ⟨_, rfl⟩
  · rw [ask_calm rfl r1 hl1 a1 b1 n1 l1]
    simp only
    rw [ask_calm rfl r2 hl2 a2 b2 n2 l2]
    exact ⟨_, rfl⟩

/-- A record that says both: something with this name was moved away, and something was moved here. -/
def bothOf (h : Handle) (n : Str) (who : Who) : FRec := { recOf h .moveFrom n true who with mask := 0x400000c0#64 }

theorem merged_ft (h : Handle) (n : Str) (who : Who) :
    ({ recOf h .moveFrom n true who with mask := (recOf h .moveFrom n true who).mask ||| (recOf h .moveTo n true who).mask } : FRec) = bothOf h n who := by
  have hm : (recOf h .moveFrom n true who).mask ||| (recOf h .moveTo n true who).mask = 0x400000c0#64 := by
    show ((0x40#64 ||| 0x40000000#64) ||| (0x80#64 ||| 0x40000000#64) : BitVec 64) = _; decide
  rw [hm]; rfl

theorem merged_tf (h : Handle) (n : Str) (who : Who) :
    ({ recOf h .moveTo n true who with mask := (recOf h .moveTo n true who).mask ||| (recOf h .moveFrom n true who).mask } : FRec) = bothOf h n who := by
  show ({ recOf h .moveFrom n true who with mask := _ } : FRec) = _
  have hm : (recOf h .moveTo n true who).mask ||| (recOf h .moveFrom n true who).mask = 0x400000c0#64 := by
    show ((0x80#64 ||| 0x40000000#64) ||| (0x40#64 ||| 0x40000000#64) : BitVec 64) = _; decide
  rw [hm]; rfl

theorem both_over (h : Handle) (n : Str) (who : Who) : (bothOf h n who).overflow = false := by
  show ((0x400000c0#64).getLsbD 14) = false; decide
theorem both_effect (h : Handle) (n : Str) (who : Who) : (bothOf h n who).effect = .rename := by
  show (if (0x400000c0#64).getLsbD 8 then EffectType.create else if (0x400000c0#64).getLsbD 9 then .destroy else if (0x400000c0#64).getLsbD 1 then .modify
    else if (0x400000c0#64).getLsbD 6 || (0x400000c0#64).getLsbD 7 then .rename else .other) = .rename
  decide
theorem both_from (h : Handle) (n : Str) (who : Who) : (bothOf h n who).movedFrom = true := by
  show ((0x400000c0#64).getLsbD 6) = true; decide
theorem both_to (h : Handle) (n : Str) (who : Who) : (bothOf h n who).movedTo = true := by
  show ((0x400000c0#64).getLsbD 7) = true; decide
theorem both_ptype (h : Handle) (n : Str) (who : Who) : (bothOf h n who).ptype = .dir := by
  show (if (0x400000c0#64).getLsbD 30 then PathType.dir else .file) = .dir; decide
theorem both_wf {h : Handle} {n : Str} {who : Who} (hn : okName n = true) : (bothOf h n who).WF where
  fsid := rfl
  noZero := (okName_facts hn).2.2.1
  short := (okName_facts hn).2.1
  term := by show 0 < 4 - (h.length + n.length) % 4; omega
  ovf := by intro hx; rw [both_over] at hx; cases hx
theorem both_len {h : Handle} {n : Str} {who : Who} (hn : okName n = true) (hh : h.length ≤ 128)
    (hw : who.extra.length ≤ 200) : (bothOf h n who).bytes.length ≤ 700 := by
  rw [rec_length, body_info (both_over _ _ _)]
  have := (okName_facts hn).2.1
  simp only [FRec.info, bothOf, recOf, List.length_append, List.length_cons, List.length_nil, le32_length, List.length_replicate]
  omega

/-- Reading a few records, given what they say. -/
theorem read_few {st : Fa.St World} (hl : st.buf.length = 4096) (hlen : (fbatch st.sys.k.queue).length ≤ 2800) (hwf : ∀ r ∈ st.sys.k.queue, r.WF)
    {evs : List Ev} (hne : ∀ e ∈ evs, e.ptype ≠ .watcher)
    (hrun : ∃ o w2, Fa.told (sys rf) false st.sys.k.queue (fbatch st.sys.k.queue).length
        { st.sys with k := { st.sys.k with queue := [] }, sched := [] } = some (o, w2, .pending) ∧ o.map Prod.fst = evs ∧ w2.sched = [] ∧
         w2.k = { st.sys.k with queue := [] }) :
    ∃ st', calmRead rf st = .ok st' ∧ st'.sys.sched = [] ∧ st'.buf.length = 4096 ∧ st'.sys.k = { st.sys.k with queue := [] } ∧
      fileEvents (st'.out.map Prod.fst) = fileEvents (st.out.map Prod.fst) ++ evs := by
  have hb : FBatch st.sys.k.queue := ⟨hwf, by omega⟩
  obtain ⟨o, w2, hrun, ho, hw1, hw2⟩ := hrun
  have hfull : ∃ stale : List UInt8, (fbatch st.sys.k.queue ++ st.buf.drop (fbatch st.sys.k.queue).length).drop 0 = fbatch st.sys.k.queue ++ stale ∧
      (false = true ↔ stale.length < 4) :=
    ⟨_, rfl, by rw [List.length_drop]; constructor <;> intro h
                · cases h
                · omega⟩
  have hh := loop_told (sys rf) (sound rf).err st.sys.k.queue.length st.sys.k.queue (Nat.le_refl _) (cUlim + 1) 0 (some 0) (fbatch st.sys.k.queue).length
    { st with buf := fbatch st.sys.k.queue ++ st.buf.drop (fbatch st.sys.k.queue).length, sys := { st.sys with k := { st.sys.k with queue := [] }, sched := [] } }
    (.inl rfl) ⟨⟨hb.wf, hb.fits, st.buf.drop (fbatch st.sys.k.queue).length, rfl, fun h => by cases h⟩, hfull⟩ (Int.le_refl _)
    (by have : cUlim = 170 := by decide
        omega)
  simp only [hrun, Agrees] at hh
  unfold calmRead exec
  simp only [List.take_length, List.drop_length]
  rw [if_pos (by simpa [bufLen] using hb.fits)]
  unfold doEvRecv
  simp only
  rw [hh]
  simp only [Outcome.bind_ok]
  rw [if_pos (by decide)]
  refine ⟨_, rfl, hw1, ?_, hw2, ?_⟩
  · simp only [List.length_append, List.length_drop]; omega
  · simp only [List.map_append, fileEvents, List.filter_append, ho]
    congr 1
    rw [List.filter_eq_self]
    intro e he
    simpa using hne e he

/-- Reading the records of an exchange, each for itself. -/
theorem read_four {st : Fa.St World} (hI : Inv st.sys.k) (hl : st.buf.length = 4096) {h1 h2 : Handle} {d1 n1 d2 n2 : Str} {who : Who}
    (hn1 : okName n1 = true) (hn2 : okName n2 = true) (hx : who.extra.length ≤ 200)
    (hm1 : (h1, d1) ∈ st.sys.k.dirs) (hm2 : (h2, d2) ∈ st.sys.k.dirs)
    (hq : st.sys.k.queue = [recOf h1 .moveFrom n1 true who, recOf h2 .moveTo n2 true who, recOf h2 .moveFrom n2 true who, recOf h1 .moveTo n1 true who]) :
    ∃ st', calmRead rf st = .ok st' ∧ st'.sys.sched = [] ∧ st'.buf.length = 4096 ∧ st'.sys.k = { st.sys.k with queue := [] } ∧
      fileEvents (st'.out.map Prod.fst) = fileEvents (st.out.map Prod.fst) ++
        [⟨d1 ++ b!"/" ++ n1, .rename, .dir, some ⟨d2 ++ b!"/" ++ n2, .rename, .dir⟩⟩,
         ⟨d2 ++ b!"/" ++ n2, .rename, .dir, some ⟨d1 ++ b!"/" ++ n1, .rename, .dir⟩⟩] := by
  have hs1 : h1.length ≤ 128 ∧ d1 ≠ [] ∧ d1.length ≤ 3829 := hI.short _ hm1
  have hs2 : h2.length ≤ 128 ∧ d2 ≠ [] ∧ d2.length ≤ 3829 := hI.short _ hm2
  have hft : ∀ (h h' : Handle) (n n' : Str), (recOf h .moveFrom n true who).fromTo (recOf h' .moveTo n' true who) = true := by
    intro h h' n n'
    simp [FRec.fromTo, recOf_effect, recOf_from, recOf_to, eff]
  have e1 := lookup_of_mem hI.handles hm1
  have e2 := lookup_of_mem hI.handles hm2
  have f1 := okName_facts hn1
  have f2 := okName_facts hn2
  refine read_few hl ?_ ?_ (by simp) ?_
  · rw [hq, fbatch_cons, fbatch_cons, fbatch_cons, fbatch_cons]
    have a1 := recOf_len (kind := .moveFrom) (od := true) hn1 hs1.1 hx
    have a2 := recOf_len (kind := .moveTo) (od := true) hn2 hs2.1 hx
    have a3 := recOf_len (kind := .moveFrom) (od := true) hn2 hs2.1 hx
    have a4 := recOf_len (kind := .moveTo) (od := true) hn1 hs1.1 hx
    simp only [fbatch, List.flatMap_nil, List.length_nil, List.length_append]; omega
  · intro r hr
    rw [hq] at hr
    simp only [List.mem_cons, List.not_mem_nil, or_false] at hr
    rcases hr with rfl | rfl | rfl | rfl <;> apply recOf_wf <;> assumption
  · obtain ⟨c1, g1⟩ := ask2_calm (rf := rf) { st.sys.k with queue := [] } st.sys.cur (recOf h1 .moveFrom n1 true who) (recOf h2 .moveTo n2 true who)
      e1 e2 hs1.2.1 hs2.2.1 hs1.2.2 hs2.2.2 f1.2.2.2 f2.2.2.2 f1.2.1 f2.2.1
    obtain ⟨c2, g2⟩ := ask2_calm (rf := rf) { st.sys.k with queue := [] } c1 (recOf h2 .moveFrom n2 true who) (recOf h1 .moveTo n1 true who)
      e2 e1 hs2.2.1 hs1.2.1 hs2.2.2 hs1.2.2 f2.2.2.2 f1.2.2.2 f2.2.1 f1.2.1
    rw [hq]
    simp only [fbatch_cons, List.length_append]
    rw [told_pair _ _ _ _ _ _ _ _ _ _ (recOf_over _ _ _ _ _) (hft ..) (by push_cast; omega) rfl g1]
    rw [told_pair _ _ _ _ _ _ _ _ _ _ (recOf_over _ _ _ _ _) (hft ..) (by push_cast; omega) rfl g2]
    rw [Fa.told]
    simp only [Option.map_some, recOf_ptype, if_true]
    exact ⟨_, _, rfl, rfl, rfl, rfl⟩

/-- Reading two records of which the first says that something was moved away, the second that something was moved here. -/
theorem read_away_here {st : Fa.St World} (hI : Inv st.sys.k) (hl : st.buf.length = 4096) {h1 h2 : Handle} {d1 n1 d2 n2 : Str} {who : Who}
    (hn1 : okName n1 = true) (hn2 : okName n2 = true) (hx : who.extra.length ≤ 200)
    (hm1 : (h1, d1) ∈ st.sys.k.dirs) (hm2 : (h2, d2) ∈ st.sys.k.dirs) {A B : FRec}
    (hA : A = recOf h1 .moveFrom n1 true who ∨ A = bothOf h1 n1 who) (hB : B = recOf h2 .moveTo n2 true who ∨ B = bothOf h2 n2 who)
    (hq : st.sys.k.queue = [A, B]) :
    ∃ st', calmRead rf st = .ok st' ∧ st'.sys.sched = [] ∧ st'.buf.length = 4096 ∧ st'.sys.k = { st.sys.k with queue := [] } ∧
      fileEvents (st'.out.map Prod.fst) = fileEvents (st.out.map Prod.fst) ++
        [⟨d1 ++ b!"/" ++ n1, .rename, .dir, some ⟨d2 ++ b!"/" ++ n2, .rename, .dir⟩⟩] := by
  have hs1 : h1.length ≤ 128 ∧ d1 ≠ [] ∧ d1.length ≤ 3829 := hI.short _ hm1
  have hs2 : h2.length ≤ 128 ∧ d2 ≠ [] ∧ d2.length ≤ 3829 := hI.short _ hm2
  have fA : A.overflow = false ∧ A.effect = .rename ∧ A.movedFrom = true ∧ A.ptype = .dir ∧ A.WF ∧ A.bytes.length ≤ 700 ∧ A.handle = h1 ∧ A.name = n1 := by
    rcases hA with rfl | rfl
    · exact ⟨recOf_over .., recOf_effect .., by rw [recOf_from]; rfl, recOf_ptype .., recOf_wf hn1, recOf_len hn1 hs1.1 hx, rfl, rfl⟩
    · exact ⟨both_over .., both_effect .., both_from .., both_ptype .., both_wf hn1, both_len hn1 hs1.1 hx, rfl, rfl⟩
  have fB : B.movedTo = true ∧ B.WF ∧ B.bytes.length ≤ 700 ∧ B.handle = h2 ∧ B.name = n2 := by
    rcases hB with rfl | rfl
    · exact ⟨by rw [recOf_to]; rfl, recOf_wf hn2, recOf_len hn2 hs2.1 hx, rfl, rfl⟩
    · exact ⟨both_to .., both_wf hn2, both_len hn2 hs2.1 hx, rfl, rfl⟩
  obtain ⟨o1, o2, o3, o4, o5, o6, o7, o8⟩ := fA
  obtain ⟨b1, b2, b3, b4, b5⟩ := fB
  have f1 := okName_facts hn1
  have f2 := okName_facts hn2
  refine read_few hl ?_ ?_ (by simp) ?_
  · rw [hq, fbatch_cons, fbatch_cons]
    simp only [fbatch, List.flatMap_nil, List.length_nil, List.length_append]; omega
  · intro r hr
    rw [hq] at hr
    simp only [List.mem_cons, List.not_mem_nil, or_false] at hr
    rcases hr with rfl | rfl <;> assumption
  · obtain ⟨c1, g1⟩ := ask2_calm (rf := rf) { st.sys.k with queue := [] } st.sys.cur A B (d1 := d1) (d2 := d2)
      (by rw [o7]; exact lookup_of_mem hI.handles hm1) (by rw [b4]; exact lookup_of_mem hI.handles hm2)
      hs1.2.1 hs2.2.1 hs1.2.2 hs2.2.2 (by rw [o8]; exact f1.2.2.2) (by rw [b5]; exact f2.2.2.2) (by rw [o8]; exact f1.2.1) (by rw [b5]; exact f2.2.1)
    rw [hq]
    simp only [fbatch_cons, List.length_append]
    rw [told_pair _ _ _ _ _ _ _ _ _ _ o1 (by simp [FRec.fromTo, o2, o3, b1]) (by push_cast; omega) rfl g1]
    rw [Fa.told]
    simp only [Option.map_some, o4, o8, b5]
    exact ⟨_, _, rfl, rfl, rfl, rfl⟩

/-- Reading two records about the same entry of which the first says that it was moved here, the second that it was moved away. -/
theorem read_here_away {st : Fa.St World} (hI : Inv st.sys.k) (hl : st.buf.length = 4096) {h : Handle} {d n : Str} {who : Who}
    (hn : okName n = true) (hx : who.extra.length ≤ 200) (hm : (h, d) ∈ st.sys.k.dirs)
    (hq : st.sys.k.queue = [recOf h .moveTo n true who, recOf h .moveFrom n true who]) :
    ∃ st', calmRead rf st = .ok st' ∧ st'.sys.sched = [] ∧ st'.buf.length = 4096 ∧ st'.sys.k = { st.sys.k with queue := [] } ∧
      fileEvents (st'.out.map Prod.fst) = fileEvents (st.out.map Prod.fst) ++
        [⟨d ++ b!"/" ++ n, .rename, .dir, some ⟨d ++ b!"/" ++ n, .rename, .dir⟩⟩] := by
  have hs : h.length ≤ 128 ∧ d ≠ [] ∧ d.length ≤ 3829 := hI.short _ hm
  have f := okName_facts hn
  have e := lookup_of_mem hI.handles hm
  have a1 := recOf_len (kind := .moveTo) (od := true) hn hs.1 hx
  have a2 := recOf_len (kind := .moveFrom) (od := true) hn hs.1 hx
  refine read_few hl ?_ ?_ (by simp) ?_
  · rw [hq, fbatch_cons, fbatch_cons]
    simp only [fbatch, List.flatMap_nil, List.length_nil, List.length_append]; omega
  · intro r hr
    rw [hq] at hr
    simp only [List.mem_cons, List.not_mem_nil, or_false] at hr
    rcases hr with rfl | rfl <;> exact recOf_wf hn
  · obtain ⟨c1, g1⟩ := ask2_calm (rf := rf) { st.sys.k with queue := [] } st.sys.cur (recOf h .moveFrom n true who) (recOf h .moveTo n true who)
      e e hs.2.1 hs.2.1 hs.2.2 hs.2.2 f.2.2.2 f.2.2.2 f.2.1 f.2.1
    rw [hq]
    simp only [fbatch_cons, List.length_append]
    rw [told_riap _ _ _ _ _ _ _ _ _ (recOf_over _ _ _ _ _) (by simp [FRec.fromTo, recOf_effect, recOf_from, recOf_to, eff])
      (by simp [FRec.toFrom, recOf_effect, recOf_from, recOf_to, eff]) (by simp [fbatch]) (by rw [rec_length]; omega) g1]
    simp only [recOf_ptype, if_true]
    exact ⟨_, _, rfl, rfl, rfl, rfl⟩

/-- Reading one record that says both. -/
theorem read_both {st : Fa.St World} (hI : Inv st.sys.k) (hl : st.buf.length = 4096) {h : Handle} {d n : Str} {who : Who}
    (hn : okName n = true) (hx : who.extra.length ≤ 200) (hm : (h, d) ∈ st.sys.k.dirs) (hq : st.sys.k.queue = [bothOf h n who]) :
    ∃ st', calmRead rf st = .ok st' ∧ st'.sys.sched = [] ∧ st'.buf.length = 4096 ∧ st'.sys.k = { st.sys.k with queue := [] } ∧
      fileEvents (st'.out.map Prod.fst) = fileEvents (st.out.map Prod.fst) ++ [about d n .rename .dir] := by
  have hs : h.length ≤ 128 ∧ d ≠ [] ∧ d.length ≤ 3829 := hI.short _ hm
  have f := okName_facts hn
  have a1 := both_len (h := h) (who := who) hn hs.1 hx
  refine read_few hl ?_ ?_ (by simp [about]) ?_
  · rw [hq, fbatch_cons]
    simp only [fbatch, List.flatMap_nil, List.length_nil, List.length_append]; omega
  · intro r hr
    rw [hq, List.mem_singleton] at hr
    subst hr; exact both_wf hn
  · rw [hq]
    have hf : fbatch [bothOf h n who] = (bothOf h n who).bytes := by rw [fbatch_cons]; simp [fbatch]
    rw [hf]
    rw [told_alone _ _ _ _ _ _ (both_over ..) (by show ((0x400000c0#64).getLsbD 8) = false; decide)
      (ask_calm (w := { st.sys with k := { st.sys.k with queue := [] }, sched := [] }) rfl (bothOf h n who) (p := d) (lookup_of_mem hI.handles hm) hs.2.1 hs.2.2 f.2.2.2 f.2.1)]
    rw [both_effect, both_ptype]
    exact ⟨_, _, rfl, rfl, rfl, rfl⟩

end Verif.Lemmas.FKer
