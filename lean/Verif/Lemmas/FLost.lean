import Verif.Lemmas.FKernel5
import Verif.Spec.FLost
/-! Reads with records about directories that have gone. -/
namespace Verif.Lemmas.FKer
open Verif Verif.Model Verif.Model.Fa Verif.Model.FKer Verif.Spec Verif.Spec.FKer Verif.Lemmas.Fa

variable {rf : Bool} {need : Handle → Prop}

theorem WInvN.keeps {m : Bool} {seen : List Change} {w : World} (h : WInvN need m seen w) (hne : ∃ g, need g) : allSched keeps w.sched = true := by
  rcases h.still with h | h
  · exact h
  · obtain ⟨g, hg⟩ := hne; exact absurd hg (h g)

/-- Looking up any record: a path its directory has or had, or nothing, and then it was not needed. -/
theorem resolve_any {m : Bool} {seen : List Change} {w : World} (h : WInvN need m seen w) (hne : ∃ g, need g) {r : FRec} (hn : okName r.name = true)
    (hkn : r.handle ∈ w.k.past.map (·.1)) :
    (∃ d w', Fa.resolve (sys rf) r w = (some (d ++ b!"/" ++ r.name), w') ∧ WInvN need m seen w' ∧ Grows w.k w'.k ∧ (r.handle, d) ∈ w'.k.past) ∨
    (∃ w', Fa.resolve (sys rf) r w = (none, w') ∧ WInvN need m seen w' ∧ Grows w.k w'.k ∧ ¬ need r.handle) := by
  by_cases hneed : need r.handle
  · exact .inl (resolve_w h hn hkn hneed)
  have ht := tick_w h
  cases hq : (tick w).2.k.dirs.lookup r.handle with
  | none =>
    refine .inr ⟨(tick w).2, ?_, ht.1, ht.2, hneed⟩
    have e : (sys rf).openByHandle w r.handle = ((-1, 116), (tick w).2) := by simp only [sys, hq]
    unfold Fa.resolve
    rw [e]
    simp only
    rw [if_pos (by decide)]
  | some q =>
    have e : (sys rf).openByHandle w r.handle = ((3, 0), { (tick w).2 with cur := r.handle }) := by simp only [sys, hq]
    have hin : r.handle ∈ (tick w).2.k.dirs.map (·.1) := List.mem_map.2 ⟨_, lookup_mem' hq, rfl⟩
    have h1 : WInvN (· = r.handle) m seen { (tick w).2 with cur := r.handle } :=
      ⟨ht.1.k, fun e _ he => by rw [he]; exact hin, ht.1.kept, ht.1.sched, .inl (ht.1.keeps hne)⟩
    have ht2 := tick_w h1
    have hcur : (tick { (tick w).2 with cur := r.handle }).2.cur = r.handle := by
      unfold tick; split <;> rfl
    have hmem : (r.handle, q) ∈ (tick { (tick w).2 with cur := r.handle }).2.k.past := ht2.2.past.subset (ht.1.k.past _ (lookup_mem' hq))
    obtain ⟨y, hy, hy2⟩ := List.mem_map.1 (ht2.1.here _ hmem rfl)
    have hd : (tick { (tick w).2 with cur := r.handle }).2.k.dirs.lookup r.handle = some y.2 := by
      have hy2' : y.1 = r.handle := hy2
      have h3 := lookup_of_mem ht2.1.k.handles hy
      rw [hy2'] at h3
      exact h3
    have hm := ht2.1.k.past _ (lookup_mem' hd)
    have hs := ht2.1.k.pastShort _ hm
    refine .inl ⟨y.2, (tick { (tick w).2 with cur := r.handle }).2, ?_, (tick_w (ht.1.cur r.handle)).1, ht.2.trans ht2.2, hm⟩
    unfold Fa.resolve
    rw [e]
    simp only
    rw [if_neg (by decide)]
    simp only [sys, hcur, linkOf, hd]
    rw [clip_eq hs.1 (by have := hs.2; simp only at this; omega), if_neg (okName_facts hn).2.2.2]

theorem known_grows {g : Handle} {k k' : K} (hg : Grows k k') (hm : g ∈ k.past.map (·.1)) : g ∈ k'.past.map (·.1) := by
  obtain ⟨e, h1, h2⟩ := List.mem_map.1 hm
  exact List.mem_map.2 ⟨e, hg.past.subset h1, h2⟩

theorem resolve2_any {m : Bool} {seen : List Change} {w : World} (h : WInvN need m seen w) (hne : ∃ g, need g) {a b : FRec} (ha : okName a.name = true)
    (hb : okName b.name = true) (hka : a.handle ∈ w.k.past.map (·.1)) (hkb : b.handle ∈ w.k.past.map (·.1)) :
    (∃ d d' w', Fa.resolve2 (sys rf) a b w = (some (d ++ b!"/" ++ a.name, d' ++ b!"/" ++ b.name), w') ∧ WInvN need m seen w' ∧ Grows w.k w'.k ∧
      (a.handle, d) ∈ w'.k.past ∧ (b.handle, d') ∈ w'.k.past) ∨
    (∃ w', Fa.resolve2 (sys rf) a b w = (none, w') ∧ WInvN need m seen w' ∧ Grows w.k w'.k ∧ (¬ need a.handle ∨ ¬ need b.handle)) := by
  unfold Fa.resolve2
  split
  · rcases resolve_any (rf := rf) h hne hb hkb with ⟨d', w1, e1, i1, g1, p1⟩ | ⟨w1, e1, i1, g1, p1⟩ <;>
    rcases resolve_any (rf := rf) i1 hne ha (known_grows g1 hka) with ⟨d, w2, e2, i2, g2, p2⟩ | ⟨w2, e2, i2, g2, p2⟩ <;>
    rw [e1] <;> simp only [] <;> rw [e2]
    · exact .inl ⟨d, d', w2, rfl, i2, g1.trans g2, p2, g2.past.subset p1⟩
    · exact .inr ⟨w2, rfl, i2, g1.trans g2, .inl p2⟩
    · exact .inr ⟨w2, rfl, i2, g1.trans g2, .inr p1⟩
    · exact .inr ⟨w2, rfl, i2, g1.trans g2, .inr p1⟩
  · rcases resolve_any (rf := rf) h hne ha hka with ⟨d, w1, e1, i1, g1, p1⟩ | ⟨w1, e1, i1, g1, p1⟩ <;>
    rcases resolve_any (rf := rf) i1 hne hb (known_grows g1 hkb) with ⟨d', w2, e2, i2, g2, p2⟩ | ⟨w2, e2, i2, g2, p2⟩ <;>
    rw [e1] <;> simp only [] <;> rw [e2]
    · exact .inl ⟨d, d', w2, rfl, i2, g1.trans g2, g2.past.subset p1, p2⟩
    · exact .inr ⟨w2, rfl, i2, g1.trans g2, .inr p2⟩
    · exact .inr ⟨w2, rfl, i2, g1.trans g2, .inl p1⟩
    · exact .inr ⟨w2, rfl, i2, g1.trans g2, .inl p1⟩

/-- Records that begin with one that was not needed, or with a rename one of whose names was not. -/
def Stale (need : Handle → Prop) (lost : List FRec) : Prop :=
  ∃ r l, lost = r :: l ∧ (¬ need r.handle ∨ ∃ x l', l = x :: l' ∧ r.fromTo x = true ∧ ¬ need x.handle)

/-- What any batch is reported as: a beginning of it is told. -/
theorem run_lost {m : Bool} {seen : List Change} (hne : ∃ g, need g) : ∀ (n : Nat) (rs : List FRec), rs.length ≤ n → ∀ {w : World}, WInvN need m seen w →
    (∀ r ∈ rs, Cov w.k.log w.k.past r) →
    ∃ o w' res told lost, Fa.run (sys rf) rs w = (o, w', res) ∧ res.keepsRunning = true ∧ WInvN need m seen w' ∧ Grows w.k w'.k ∧ rs = told ++ lost ∧
      RTold w'.k.past told (fileEvents (o.map Prod.fst)) ∧ (lost = [] ∨ Stale need lost) := by
  intro n
  induction n with
  | zero =>
    intro rs hl w hw _
    rw [List.length_eq_zero_iff.1 (Nat.le_zero.1 hl)]
    exact ⟨[], w, _, [], [], run_nil _ _, by decide, hw, .refl _, rfl, .nil, .inl rfl⟩
  | succ n ih =>
    intro rs hl w hw hc
    cases rs with
    | nil => exact ⟨[], w, _, [], [], run_nil _ _, by decide, hw, .refl _, rfl, .nil, .inl rfl⟩
    | cons r rest =>
      have hcr := hc r (by simp)
      by_cases hft : ∃ r2 rest2, rest = r2 :: rest2 ∧ r.fromTo r2 = true
      · obtain ⟨r2, rest2, rfl, hft⟩ := hft
        have hc2 := hc r2 (by simp)
        rcases resolve2_any (rf := rf) hw hne hcr.name hc2.name hcr.known hc2.known with ⟨d, d', w1, e1, i1, g1, p1, p2⟩ | ⟨w1, e1, i1, g1, p1⟩
        · obtain ⟨o, w', res, told, lost, e2, hk, i2, g2, hsp, t2, hst⟩ := ih rest2 (by simp at hl; omega) i1
            (fun x hx => (hc x (by simp [hx])).mono g1.log g1.past)
          refine ⟨(⟨d ++ b!"/" ++ r.name, .rename, r.ptype, some ⟨d' ++ b!"/" ++ r2.name, .rename, r.ptype⟩⟩, w1) :: o, w', res, r :: r2 :: told, lost,
            ?_, hk, i2, g1.trans g2, by rw [hsp]; rfl, ?_, hst⟩
          · rw [run_pair _ _ hcr.over hft, e1]
            simp only [e2]
          · have hpt : r.ptype ≠ .watcher := by unfold FRec.ptype; split <;> simp
            have : fileEvents (((⟨d ++ b!"/" ++ r.name, .rename, r.ptype, some ⟨d' ++ b!"/" ++ r2.name, .rename, r.ptype⟩⟩, w1) :: o).map Prod.fst) =
                ⟨d ++ b!"/" ++ r.name, .rename, r.ptype, some ⟨d' ++ b!"/" ++ r2.name, .rename, r.ptype⟩⟩ :: fileEvents (o.map Prod.fst) := by
              simp [fileEvents, hpt]
            rw [this]
            exact .both hft (g2.past.subset p1) (g2.past.subset p2) t2
        · refine ⟨[], w1, .wBadFd, [], r :: r2 :: rest2, ?_, by decide, i1, g1, rfl, .nil, .inr ⟨r, _, rfl, ?_⟩⟩
          · rw [run_pair _ _ hcr.over hft, e1]
          · rcases p1 with p | p
            · exact .inl p
            · exact .inr ⟨r2, rest2, rfl, hft, p⟩
      · have hal : FAlone r rest := by
          intro r2 rest2 h
          cases hx : r.fromTo r2 with
          | false => rfl
          | true => exact absurd ⟨r2, rest2, h, hx⟩ hft
        rcases resolve_any (rf := rf) hw hne hcr.name hcr.known with ⟨d, w1, e1, i1, g1, p1⟩ | ⟨w1, e1, i1, g1, p1⟩
        · have hmk : ∃ mk, (if (r.created && r.onDir) = true then Fa.markSpec (sys rf) (d ++ b!"/" ++ r.name) w1 else ([], w1)) = mk ∧
              WInvN need m seen mk.2 ∧ Grows w1.k mk.2.k ∧ fileEvents (mk.1.map Prod.fst) = [] := by
            split
            · exact ⟨_, rfl, markSpec_w i1 _⟩
            · exact ⟨_, rfl, i1, .refl _, rfl⟩
          obtain ⟨mk, em, i2, g2, f2⟩ := hmk
          obtain ⟨o, w', res, told, lost, e3, hk, i3, g3, hsp, t3, hst⟩ := ih rest (by simp at hl; omega) i2
            (fun x hx => (hc x (by simp [hx])).mono (g1.log.trans g2.log) (g1.past.trans g2.past))
          refine ⟨mk.1 ++ (⟨d ++ b!"/" ++ r.name, r.effect, r.ptype, none⟩, mk.2) :: o, w', res, r :: told, lost, ?_, hk, i3, (g1.trans g2).trans g3,
            by rw [hsp]; rfl, ?_, hst⟩
          · rw [run_single _ _ hcr.over hal, e1]
            simp only [em, e3]
          · have hpt : r.ptype ≠ .watcher := by unfold FRec.ptype; split <;> simp
            rw [List.map_append, fileEvents_append, f2, List.nil_append]
            have : fileEvents (((⟨d ++ b!"/" ++ r.name, r.effect, r.ptype, none⟩, mk.2) :: o).map Prod.fst) =
                ⟨d ++ b!"/" ++ r.name, r.effect, r.ptype, none⟩ :: fileEvents (o.map Prod.fst) := by
              simp [fileEvents, hpt]
            rw [this]
            exact .one ((g2.trans g3).past.subset p1) t3
        · refine ⟨[], w1, .wBadFd, [], r :: rest, ?_, by decide, i1, g1, rfl, .nil, .inr ⟨r, _, rfl, .inl p1⟩⟩
          rw [run_single _ _ hcr.over hal, e1]

/-- All records from a stale one on are skipped. -/
theorem skipped_of_stale {k : K} (hn : ∀ g, ¬ need g → g ∉ k.dirs.map (·.1)) {told lost : List FRec} (hs : Stale need lost) :
    ∀ r ∈ lost, Skipped k (told ++ lost) r := by
  intro r hr
  obtain ⟨r0, l, rfl, hs⟩ := hs
  obtain ⟨a, b, hab⟩ := List.append_of_mem hr
  cases a with
  | nil =>
    simp only [List.nil_append, List.cons.injEq] at hab
    obtain ⟨rfl, rfl⟩ := hab
    rcases hs with hs | ⟨x, l', rfl, hft, hs⟩
    · exact ⟨told, l, r0, rfl, hn _ hs, .inr (.inl rfl)⟩
    · exact ⟨told, x :: l', x, rfl, hn _ hs, .inr (.inr ⟨rfl, hft⟩)⟩
  | cons y a =>
    simp only [List.cons_append, List.cons.injEq] at hab
    obtain ⟨rfl, rfl⟩ := hab
    have hsp : told ++ r0 :: (a ++ r :: b) = (told ++ r0 :: a) ++ r :: b := by simp
    rcases hs with hs | ⟨x, l', hx, hft, hs⟩
    · exact ⟨told ++ r0 :: a, b, r0, hsp, hn _ hs, .inl (by simp)⟩
    · cases a with
      | nil =>
        simp only [List.nil_append, List.cons.injEq] at hx
        obtain ⟨rfl, rfl⟩ := hx
        exact ⟨told ++ [r0], b, r, hsp, hn _ hs, .inr (.inl rfl)⟩
      | cons z a =>
        simp only [List.cons_append, List.cons.injEq] at hx
        obtain ⟨rfl, _⟩ := hx
        exact ⟨told ++ r0 :: z :: a, b, z, hsp, hn _ hs, .inl (by simp)⟩

theorem exists_longer (l : List Handle) : ∃ g, g ∉ l := by
  have : ∃ n, ∀ h ∈ l, h.length ≤ n := by
    induction l with
    | nil => exact ⟨0, fun h hh => by cases hh⟩
    | cons a l ih =>
      obtain ⟨n, hn⟩ := ih
      refine ⟨max a.length n, ?_⟩
      intro h hh
      rcases List.mem_cons.1 hh with rfl | hh
      · exact Nat.le_max_left _ _
      · exact Nat.le_trans (hn h hh) (Nat.le_max_right _ _)
  obtain ⟨n, hn⟩ := this
  refine ⟨List.replicate (n + 1) 0, fun h => ?_⟩
  have := hn _ h
  simp only [List.length_replicate] at this
  omega

/-- The state of a watch in the middle of a history with changes that were missed. -/
structure LInv (st : Fa.St World) (missed : Change → Prop) : Prop where
  k : KInv st.sys.k
  buf : st.buf.length = 4096
  all : ∀ c ∈ st.sys.k.log, (∃ r ∈ st.sys.k.queue, r.handle = c.handle ∧ r.name = c.name) ∨
    (∃ e ∈ fileEvents (st.out.map Prod.fst), Mentions st.sys.k.past c e) ∨ missed c

theorem op_linv {st : Fa.St World} {missed : Change → Prop} (h : LInv st missed) (x : Do) :
    LInv { st with sys := { st.sys with k := doIt st.sys.k x } } missed := by
  have hk := doIt_kinv h.k x
  have kept : Kept false st.sys.k.log st.sys.k := fun c hc => .inl hc
  refine ⟨hk.1, h.buf, ?_⟩
  intro c hc
  have key : Kept false (st.sys.k.log.filter (fun c => !(st.sys.k.queue.any (fun r => r.handle == c.handle && r.name == c.name)))) st.sys.k := by
    intro c hc
    by_cases hq : st.sys.k.queue.any (fun r => r.handle == c.handle && r.name == c.name) = true
    · rw [List.any_eq_true] at hq
      obtain ⟨r, hr, h2⟩ := hq
      simp only [Bool.and_eq_true, beq_iff_eq] at h2
      exact .inr ⟨r, hr, h2⟩
    · exact .inl (List.mem_filter.2 ⟨hc, by simpa using hq⟩)
  rcases doIt_kept key x (fun h => by cases h) c hc with hs | hq
  · have hs := List.mem_filter.1 hs
    rcases h.all c hs.1 with ⟨r, hr, h1, h2⟩ | ⟨e, he, hm⟩ | hm
    · exfalso
      have := hs.2
      simp only [Bool.not_eq_true', List.any_eq_false, Bool.and_eq_true, beq_iff_eq, not_and] at this
      exact this r hr h1 h2
    · exact .inr (.inl ⟨e, he, Mentions.mono hk.2.past hm⟩)
    · exact .inr (.inr hm)
  · exact .inl hq

/-- What a read misses. -/
def MissedNow (st : Fa.St World) (n : Nat) (c : Change) : Prop :=
  c ∈ st.sys.k.log ∧ (fbatch (st.sys.k.queue.take n)).length ≤ 4096 ∧
    ∃ r, Skipped st.sys.k (st.sys.k.queue.take n) r ∧ r.handle = c.handle ∧ r.name = c.name

theorem read_linv {st : Fa.St World} {missed : Change → Prop} (h : LInv st missed) (n : Nat) (sched : List (List Do × Bool))
    (hs : allSched keeps sched = true) (hn : NoSwap (st.sys.k.queue.take n)) (hr : Roomy (st.sys.k.queue.take n)) :
    ∃ st', exec rf st (.read n sched) = .ok st' ∧ LInv st' (fun c => missed c ∨ MissedNow st n c) := by
  simp only [exec]
  by_cases hfit : (fbatch (st.sys.k.queue.take n)).length ≤ bufLen
  · rw [if_pos hfit]
    have hcov : ∀ r ∈ st.sys.k.queue.take n, Cov st.sys.k.log st.sys.k.past r := fun r hr => h.k.queue r (List.mem_of_mem_take hr)
    let need : Handle → Prop := fun g => g ∈ st.sys.k.dirs.map (·.1) ∨ g ∉ st.sys.k.past.map (·.1)
    have hne : ∃ g, need g := by
      obtain ⟨g, hg⟩ := exists_longer (st.sys.k.past.map (·.1)); exact ⟨g, .inr hg⟩
    let seen := st.sys.k.log.filter (fun c => !((st.sys.k.queue.drop n).any (fun r => r.handle == c.handle && r.name == c.name)))
    have hkept : Kept false seen { st.sys.k with queue := st.sys.k.queue.drop n } := by
      intro c hc
      by_cases hq : (st.sys.k.queue.drop n).any (fun r => r.handle == c.handle && r.name == c.name) = true
      · rw [List.any_eq_true] at hq
        obtain ⟨r, hr, h2⟩ := hq
        simp only [Bool.and_eq_true, beq_iff_eq] at h2
        exact .inr ⟨r, hr, h2⟩
      · exact .inl (List.mem_filter.2 ⟨hc, by simpa using hq⟩)
    have hw : WInvN need false seen { st.sys with k := { st.sys.k with queue := st.sys.k.queue.drop n }, sched := sched } :=
      ⟨take_kinv h.k n, fun e he hneed => hneed.elim id (fun hx => absurd (List.mem_map.2 ⟨e, he, rfl⟩) hx), hkept, mild_false sched, .inl hs⟩
    obtain ⟨o, w', res, told, lost, e, hkr, iw, g, hsp, t, hst⟩ := run_lost (rf := rf) hne _ _ (Nat.le_refl _) hw hcov
    have hrun := recv_run (sys rf) (sound rf) _ ⟨fun r hr => (hcov r hr).wf, hfit⟩ hr hn
      { st with sys := { st.sys with k := { st.sys.k with queue := st.sys.k.queue.drop n }, sched := sched } } h.buf
    simp only [e] at hrun
    simp only [hrun, Outcome.bind_ok]
    rw [if_pos hkr]
    refine ⟨_, rfl, iw.k, ?_, ?_⟩
    · have h1 := h.buf
      have h2 : bufLen = 4096 := rfl
      simp only [List.length_append, List.length_drop]
      omega
    · intro c hc
      rcases iw.kept c hc with hseen | hq
      · have hsn := List.mem_filter.1 hseen
        rcases h.all c hsn.1 with ⟨r, hr, h1, h2⟩ | ⟨e, he, hm⟩ | hm
        · rw [← List.take_append_drop n st.sys.k.queue] at hr
          rcases List.mem_append.1 hr with hr | hr
          · rw [hsp] at hr
            rcases List.mem_append.1 hr with hr | hr
            · obtain ⟨e, he, hm⟩ := rtold_mentions t hr h1 h2
              refine .inr (.inl ⟨e, ?_, hm⟩)
              simp only
              rw [List.map_append, fileEvents_append]
              exact List.mem_append_right _ he
            · refine .inr (.inr (.inr ⟨hsn.1, hfit, r, ?_, h1, h2⟩))
              rw [hsp]
              rcases hst with hst | hst
              · rw [hst] at hr; cases hr
              · refine skipped_of_stale ?_ hst r hr
                intro g hg hd
                exact hg (.inl hd)
          · exfalso
            have := hsn.2
            simp only [Bool.not_eq_true', List.any_eq_false, Bool.and_eq_true, beq_iff_eq, not_and] at this
            exact this r hr h1 h2
        · refine .inr (.inl ⟨e, ?_, Mentions.mono g.past hm⟩)
          simp only
          rw [List.map_append, fileEvents_append]
          exact List.mem_append_left _ he
        · exact .inr (.inr (.inl hm))
      · exact .inl hq
  · rw [if_neg hfit]
    refine ⟨st, rfl, h.k, h.buf, fun c hc => ?_⟩
    rcases h.all c hc with h | h | h
    · exact .inl h
    · exact .inr (.inl h)
    · exact .inr (.inr (.inl h))

theorem opened_linv {dirs : List (Handle × Str)} (hg : GoodTree dirs) (marks : List Str) (sched : List (List Do × Bool)) :
    LInv (opened rf dirs marks sched) (fun _ => False) := by
  have h0 := opened_tinv (rf := rf) (m := false) hg marks sched (mild_false sched)
  refine ⟨h0.k, h0.buf, fun c hc => ?_⟩
  rcases (show ∀ c ∈ (opened rf dirs marks sched).sys.k.log, c ∈ [] ∨ _ from h0.kept) c hc with h | h
  · cases h
  · exact .inl h

theorem LInv.imp {st : Fa.St World} {p q : Change → Prop} (h : LInv st p) (hpq : ∀ c, p c → q c) : LInv st q :=
  ⟨h.k, h.buf, fun c hc => (h.all c hc).imp id (Or.imp id (hpq c))⟩

theorem execs_linv (ss : List Step) : ∀ {st : Fa.St World} {missed : Change → Prop}, LInv st missed → ss.all (allReads keeps) = true → Fine rf st ss →
    ∃ st', execs rf st ss = .ok st' ∧ LInv st' (fun c => missed c ∨ Missed rf st ss c) := by
  induction ss with
  | nil => intro st missed h _ _; exact ⟨st, rfl, h.imp fun c => .inl⟩
  | cons s ss ih =>
    intro st missed h ha hf
    rw [List.all_cons, Bool.and_eq_true] at ha
    cases s with
    | op x =>
      obtain ⟨st', h1, h2⟩ := ih (op_linv h x) ha.2 (hf _ rfl)
      refine ⟨st', by rw [execs]; exact h1, h2.imp fun c hc => hc.imp id fun hc => ⟨_, rfl, hc⟩⟩
    | read n sched =>
      obtain ⟨st1, h1, h2⟩ := read_linv (rf := rf) h n sched ha.1 hf.1 hf.2.1
      obtain ⟨st', h3, h4⟩ := ih h2 ha.2 (hf.2.2 _ h1)
      refine ⟨st', by rw [execs, h1]; exact h3, h4.imp fun c hc => ?_⟩
      rcases hc with (hc | hc) | hc
      · exact .inl hc
      · exact .inr (.inl hc)
      · exact .inr (.inr ⟨st1, h1, hc⟩)

def newGone (k : K) (r : FRec) : List FRec → Bool
  | [] => false
  | x :: _ => !(k.dirs.map (·.1)).contains x.handle && r.fromTo x

/-- `Skipped`, to be computed. -/
def skipB (k : K) (c : Change) : Bool → List FRec → Bool
  | _, [] => false
  | bad, r :: b =>
    ((bad || !(k.dirs.map (·.1)).contains r.handle ||
newGone k r b) && r.handle == c.handle && r.name == c.name) ||
      skipB k c (bad || !(k.dirs.map (·.1)).contains r.handle) b

theorem skipB_iff {k : K} {c : Change} (rs : List FRec) : ∀ (pre : List FRec) (bad : Bool),
    (bad = true ↔ ∃ x ∈ pre, x.handle ∉ k.dirs.map (·.1)) →
    (skipB k c bad rs = true ↔ ∃ r a b x, rs = a ++ r :: b ∧ x.handle ∉ k.dirs.map (·.1) ∧ (x ∈ pre ++ a ∨ x = r ∨ (b.head? = some x ∧ r.fromTo x = true)) ∧
      r.handle = c.handle ∧ r.name = c.name) := by
  induction rs with
  | nil => intro pre bad _; simp [skipB]
  | cons r rs ih =>
    intro pre bad hb
    have hb2 : (bad || !(k.dirs.map (·.1)).contains r.handle) = true ↔ ∃ x ∈ pre ++ [r], x.handle ∉ k.dirs.map (·.1) := by
      rw [Bool.or_eq_true, hb, Bool.not_eq_true', List.contains_eq_mem, decide_eq_false_iff_not]
      constructor
      · rintro (⟨x, hx, h⟩ | h)
        · exact ⟨x, List.mem_append_left _ hx, h⟩
        · exact ⟨r, by simp, h⟩
      · rintro ⟨x, hx, h⟩
        rcases List.mem_append.1 hx with hx | hx
        · exact .inl ⟨x, hx, h⟩
        · rw [List.mem_singleton.1 hx] at h; exact .inr h
    rw [skipB, Bool.or_eq_true, ih (pre ++ [r]) _ hb2]
    constructor
    · rintro (h | ⟨r1, a, b, x, rfl, hx, hor, h1⟩)
      · simp only [Bool.and_eq_true, beq_iff_eq] at h
        obtain ⟨⟨h, h1⟩, h2⟩ := h
        rw [Bool.or_eq_true, hb2] at h
        rcases h with ⟨x, hx, h⟩ | h
        · refine ⟨r, [], rs, x, rfl, h, ?_, h1, h2⟩
          rcases List.mem_append.1 hx with hx | hx
          · exact .inl (by simpa using hx)
          · exact .inr (.inl (List.mem_singleton.1 hx))
        · cases rs with
          | nil => cases h
          | cons x rs =>
            simp only [newGone, Bool.and_eq_true, Bool.not_eq_true', List.contains_eq_mem, decide_eq_false_iff_not] at h
            exact ⟨r, [], x :: rs, x, rfl, h.1, .inr (.inr ⟨rfl, h.2⟩), h1, h2⟩
      · refine ⟨r1, r :: a, b, x, rfl, hx, ?_, h1⟩
        rcases hor with h | h
        · exact .inl (by simpa using h)
        · exact .inr h
    · rintro ⟨r1, a, b, x, hab, hx, hor, h1, h2⟩
      cases a with
      | nil =>
        simp only [List.nil_append, List.cons.injEq] at hab
        obtain ⟨rfl, rfl⟩ := hab
        refine .inl ?_
        simp only [Bool.and_eq_true, beq_iff_eq]
        refine ⟨⟨?_, h1⟩, h2⟩
        rw [Bool.or_eq_true, hb2]
        rcases hor with h | rfl | ⟨h, h3⟩
        · exact .inl ⟨x, by simp at h; simp [h], hx⟩
        · exact .inl ⟨x, by simp, hx⟩
        · cases rs with
          | nil => cases h
          | cons y rs =>
            cases h
            refine .inr ?_
            simp only [newGone, Bool.and_eq_true, Bool.not_eq_true', List.contains_eq_mem, decide_eq_false_iff_not]
            exact ⟨hx, h3⟩
      | cons y a =>
        simp only [List.cons_append, List.cons.injEq] at hab
        obtain ⟨rfl, rfl⟩ := hab
        refine .inr ⟨r1, a, b, x, rfl, hx, ?_, h1, h2⟩
        rcases hor with h | h
        · exact .inl (by simpa using h)
        · exact .inr h

/-- `Missed`, to be computed. -/
def missedB (rf : Bool) (st : Fa.St World) : List Step → Change → Bool
  | [], _ => false
  | .op o :: ss, c => match exec rf st (.op o) with | .ok st' => missedB rf st' ss c | .ub _ => false
  | .read n sched :: ss, c =>
    (st.sys.k.log.contains c && decide ((fbatch (st.sys.k.queue.take n)).length ≤ 4096) && skipB st.sys.k c false (st.sys.k.queue.take n)) ||
    match exec rf st (.read n sched) with | .ok st' => missedB rf st' ss c | .ub _ => false

theorem missedB_iff {c : Change} (ss : List Step) : ∀ {st : Fa.St World}, missedB rf st ss c = true ↔ Missed rf st ss c := by
  induction ss with
  | nil => intro st; simp [missedB, Missed]
  | cons s ss ih =>
    intro st
    cases s with
    | op o => cases h : exec rf st (.op o) <;> simp [missedB, Missed, h, ih]
    | read n sched =>
      have key : (match exec rf st (.read n sched) with | .ok st' => missedB rf st' ss c | .ub _ => false) = true ↔
          ∃ st', exec rf st (.read n sched) = .ok st' ∧ Missed rf st' ss c := by
        cases exec rf st (.read n sched) <;> simp [ih]
      rw [missedB, Missed, Bool.or_eq_true, key, Bool.and_eq_true, Bool.and_eq_true, decide_eq_true_iff, List.contains_eq_mem, decide_eq_true_iff,
        skipB_iff _ [] false (by simp)]
      constructor
      · rintro (⟨⟨h1, h2⟩, r, a, b, x, h3, h4, h5, h6⟩ | h)
        · exact .inl ⟨h1, h2, r, ⟨a, b, x, h3, h4, by simpa using h5⟩, h6⟩
        · exact .inr h
      · rintro (⟨h1, h2, r, ⟨a, b, x, h3, h4, h5⟩, h6⟩ | h)
        · exact .inl ⟨⟨h1, h2⟩, r, a, b, x, h3, h4, by simpa using h5, h6⟩
        · exact .inr h

end Verif.Lemmas.FKer
