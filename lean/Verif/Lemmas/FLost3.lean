import Verif.Lemmas.FLost
/-! Reads during which directories are removed. -/
namespace Verif.Lemmas.FKer
open Verif Verif.Model Verif.Model.Fa Verif.Model.FKer Verif.Spec Verif.Spec.FKer Verif.Lemmas.Fa

variable {rf : Bool}

/-- No directory that was known has come back. -/
def Fewer (k k' : K) : Prop := ∀ g ∈ k.past.map (·.1), g ∈ k'.dirs.map (·.1) → g ∈ k.dirs.map (·.1)

theorem Fewer.refl (k : K) : Fewer k k := fun _ _ h => h

theorem Fewer.trans {a b c : K} (h1 : Fewer a b) (hg : Grows a b) (h2 : Fewer b c) : Fewer a c :=
  fun g hk hc => h1 g hk (h2 g (known_grows hg hk) hc)

theorem Fewer.same {a b c : K} (h : Fewer a b) (hd : c.dirs = b.dirs) : Fewer a c := by
  unfold Fewer; rw [hd]; exact h

theorem moveDirF_fewer (k : K) (who : Who) (d1 n1 d2 n2 : Str) : Fewer k (moveDirF k who d1 n1 d2 n2) := by
  intro g _ hg
  unfold moveDirF at hg
  simp only at hg
  split at hg
  · simp only [(notify_frame ..).1] at hg
    simpa [List.map_map] using hg
  · exact hg

theorem apply_fewer (k : K) (who : Who) (op : Op) : Fewer k (apply k who op) := by
  cases op with
  | create d n => simp only [apply]; split; exact (Fewer.refl k).same (notify_frame ..).1; exact .refl _
  | modify d n => simp only [apply]; split; exact (Fewer.refl k).same (notify_frame ..).1; exact .refl _
  | unlink d n => simp only [apply]; split; exact (Fewer.refl k).same (notify_frame ..).1; exact .refl _
  | move d1 n1 d2 n2 =>
    simp only [apply]; split
    · exact (Fewer.refl k).same (by rw [(notify_frame ..).1, (notify_frame ..).1])
    · exact .refl _
  | mkdir d n h =>
    simp only [apply]; split
    · rename_i hc
      simp only [Bool.and_eq_true, Bool.not_eq_true', List.contains_eq_mem, decide_eq_false_iff_not] at hc
      intro g hk hg
      rw [(notify_frame ..).1] at hg
      simp only [List.map_append, List.map_cons, List.map_nil, List.mem_append, List.mem_singleton] at hg
      rcases hg with hg | rfl
      · exact hg
      · exact absurd hk hc.1.2
    · exact .refl _
  | rmdir d n =>
    simp only [apply]; split
    · intro g _ hg
      simp only [(notify_frame ..).1] at hg
      obtain ⟨e, he, h2⟩ := List.mem_map.1 hg
      exact List.mem_map.2 ⟨e, (List.mem_filter.1 he).1, h2⟩
    · exact .refl _
  | moveDir d1 n1 d2 n2 => exact moveDirF_fewer k who d1 n1 d2 n2
  | moveOver d1 n1 d2 n2 =>
    simp only [apply]; split
    · intro g hk hg
      have := moveDirF_fewer (vanish k (child d2 n2)) who d1 n1 d2 n2 g hk hg
      obtain ⟨e, he, h2⟩ := List.mem_map.1 this
      exact List.mem_map.2 ⟨e, (List.mem_filter.1 he).1, h2⟩
    · exact .refl _
  | swapDirs d1 n1 d2 n2 =>
    intro g _ hg
    simp only [apply, swapDirsF] at hg
    split at hg
    · simp only [(notify_frame ..).1] at hg
      simpa [List.map_map] using hg
    · exact hg

theorem doIts_fewer (xs : List Do) : ∀ {k : K}, KInv k → Fewer k (xs.foldl doIt k) := by
  induction xs with
  | nil => intro k _; exact .refl _
  | cons x xs ih =>
    intro k hk
    have h1 := doIt_kinv hk x
    refine Fewer.trans ?_ h1.2 (ih h1.1)
    unfold doIt
    split
    · exact apply_fewer _ _ _
    · exact .refl _

theorem tick_fewer {w : World} (hk : KInv w.k) : Fewer w.k (tick w).2.k := by
  unfold tick
  split
  · exact .refl _
  · exact doIts_fewer _ hk

theorem later_fewer {w0 w : World} (hk : KInv w0.k) (hw : Fa.Later (sys rf) w0 w) : Fewer w0.k w.k := by
  induction hw with
  | now => exact .refl _
  | realpath p h ih =>
    have h1 := later_kinv hk h
    exact ih.trans h1.2 (tick_fewer h1.1)
  | isDir p h ih =>
    have h1 := later_kinv hk h
    exact ih.trans h1.2 (tick_fewer h1.1)
  | readlink p h ih =>
    have h1 := later_kinv hk h
    exact ih.trans h1.2 (tick_fewer h1.1)
  | @openByHandle w g h ih =>
    have h1 := later_kinv hk h
    refine (ih.trans h1.2 (tick_fewer h1.1)).same ?_
    simp only [sys]; split <;> rfl
  | @mark w p h ih =>
    have h1 := later_kinv hk h
    refine (ih.trans h1.2 (tick_fewer h1.1)).same ?_
    simp only [sys]
    split
    · rfl
    · split <;> rfl

/-- A look-up that says nothing: the directory has gone. -/
theorem resolve_gone {w : World} {r : FRec} (hn : okName r.name = true) (hr : (Fa.resolve (sys rf) r w).1 = none) :
    r.handle ∉ (Fa.resolve (sys rf) r w).2.k.dirs.map (·.1) := by
  unfold Fa.resolve at hr ⊢
  cases ho : (tick w).2.k.dirs.lookup r.handle with
  | none =>
    have e : (sys rf).openByHandle w r.handle = ((-1, 116), (tick w).2) := by simp only [sys, ho]
    rw [e]
    simp only
    rw [if_pos (by decide)]
    intro hc
    obtain ⟨y, hy, h2⟩ := List.mem_map.1 hc
    rw [List.lookup_eq_none_iff] at ho
    have := ho y hy
    rw [h2] at this
    simp at this
  | some q =>
    have e : (sys rf).openByHandle w r.handle = ((3, 0), { (tick w).2 with cur := r.handle }) := by simp only [sys, ho]
    rw [e] at hr
    simp only at hr
    rw [if_neg (by decide)] at hr
    simp only [sys] at hr
    rw [if_neg (okName_facts hn).2.2.2] at hr
    cases hr

/-- `p` is a path for the entry of the record, perhaps with the mark of a removed directory. -/
def NearR (past : List (Handle × Str)) (r : FRec) (p : Str) : Prop :=
  ∃ d, (r.handle, d) ∈ past ∧ (p = d ++ b!"/" ++ r.name ∨ p = d ++ b!" (deleted)" ++ b!"/" ++ r.name)

theorem NearR.mono {past past' : List (Handle × Str)} (h : past <+: past') {r : FRec} {p : Str} (hp : NearR past r p) : NearR past' r p := by
  obtain ⟨d, h1, h2⟩ := hp; exact ⟨d, h.subset h1, h2⟩

theorem NearR.near {past : List (Handle × Str)} {r : FRec} {p : Str} (hp : NearR past r p) {c : Change} (h1 : r.handle = c.handle) (h2 : r.name = c.name) :
    Near past c p := by
  obtain ⟨d, h3, h4⟩ := hp
  rw [h1] at h3; rw [h2] at h4
  rcases h4 with h4 | h4
  · exact .inl ⟨d, h3, h4⟩
  · exact .inr ⟨d, h3, h4⟩

/-- Like `RTold`. -/
inductive RNear (past : List (Handle × Str)) : List FRec → List Ev → Prop
  | nil : RNear past [] []
  | one {r : FRec} {l : List FRec} {p : Str} {es : List Ev} : NearR past r p → RNear past l es → RNear past (r :: l) (⟨p, r.effect, r.ptype, none⟩ :: es)
  | both {a b : FRec} {l : List FRec} {p q : Str} {es : List Ev} : a.fromTo b = true → NearR past a p → NearR past b q → RNear past l es →
      RNear past (a :: b :: l) (⟨p, .rename, a.ptype, some ⟨q, .rename, a.ptype⟩⟩ :: es)

theorem rnear_mentions {past : List (Handle × Str)} {rs : List FRec} {es : List Ev} (h : RNear past rs es) {r : FRec} (hr : r ∈ rs) :
    ∀ {c : Change}, r.handle = c.handle → r.name = c.name → ∃ e ∈ es, NearMentions past c e := by
  induction h with
  | nil => cases hr
  | one h1 _ ih =>
    intro c g1 g2
    rcases List.mem_cons.1 hr with rfl | hr
    · exact ⟨_, List.mem_cons_self, .inl (h1.near g1 g2)⟩
    · obtain ⟨e, he, hm⟩ := ih hr g1 g2
      exact ⟨e, List.mem_cons_of_mem _ he, hm⟩
  | both _ h1 h2 _ ih =>
    intro c g1 g2
    rcases List.mem_cons.1 hr with rfl | hr
    · exact ⟨_, List.mem_cons_self, .inl (h1.near g1 g2)⟩
    · rcases List.mem_cons.1 hr with rfl | hr
      · exact ⟨_, List.mem_cons_self, .inr ⟨_, rfl, h2.near g1 g2⟩⟩
      · obtain ⟨e, he, hm⟩ := ih hr g1 g2
        exact ⟨e, List.mem_cons_of_mem _ he, hm⟩

abbrev WFree (m : Bool) (seen : List Change) (w : World) : Prop := WInvN (fun _ => False) m seen w

theorem WFree.mk' {m : Bool} {seen : List Change} {w : World} (hk : KInv w.k) (hkept : Kept m seen w.k) (hs : allSched (mild m) w.sched = true) :
    WFree m seen w :=
  ⟨hk, fun _ _ h => h.elim, hkept, hs, .inr fun _ h => h⟩

theorem resolve_wfree {m : Bool} {seen : List Change} {w : World} (h : WFree m seen w) (r : FRec) :
    WFree m seen (Fa.resolve (sys rf) r w).2 ∧ Grows w.k (Fa.resolve (sys rf) r w).2.k :=
  ⟨later_w h (resolve_later (sys rf) w r), (later_kinv h.k (resolve_later (sys rf) w r)).2⟩

/-- Looking up any record, whatever happens meanwhile. -/
theorem resolve_free {m : Bool} {seen : List Change} {w : World} (h : WFree m seen w) {r : FRec} (hn : okName r.name = true) :
    (∃ p w', Fa.resolve (sys rf) r w = (some p, w') ∧ WFree m seen w' ∧ Grows w.k w'.k ∧ Fewer w.k w'.k ∧ NearR w'.k.past r p) ∨
    (∃ w', Fa.resolve (sys rf) r w = (none, w') ∧ WFree m seen w' ∧ Grows w.k w'.k ∧ Fewer w.k w'.k ∧ r.handle ∉ w'.k.dirs.map (·.1)) := by
  have h1 := resolve_wfree (rf := rf) h r
  have h2 := later_fewer (rf := rf) h.k (resolve_later (sys rf) w r)
  have h3 := fun p => resolve_past (rf := rf) h.k hn (p := p)
  have h4 := resolve_gone (rf := rf) (w := w) hn
  cases e : Fa.resolve (sys rf) r w with
  | mk a w' =>
    rw [e] at h1 h2 h4
    simp only [e] at h3
    cases a with
    | some p =>
      obtain ⟨d, h5, h6⟩ := h3 p rfl
      exact .inl ⟨p, w', rfl, h1.1, h1.2, h2, d, h5, h6.imp id (·.1)⟩
    | none => exact .inr ⟨w', rfl, h1.1, h1.2, h2, h4 rfl⟩

theorem resolve2_free {m : Bool} {seen : List Change} {w : World} (h : WFree m seen w) {a b : FRec} (ha : okName a.name = true)
    (hb : okName b.name = true) (hka : a.handle ∈ w.k.past.map (·.1)) (hkb : b.handle ∈ w.k.past.map (·.1)) :
    (∃ p q w', Fa.resolve2 (sys rf) a b w = (some (p, q), w') ∧ WFree m seen w' ∧ Grows w.k w'.k ∧ NearR w'.k.past a p ∧ NearR w'.k.past b q) ∨
    (∃ w', Fa.resolve2 (sys rf) a b w = (none, w') ∧ WFree m seen w' ∧ Grows w.k w'.k ∧
      (a.handle ∉ w'.k.dirs.map (·.1) ∨ b.handle ∉ w'.k.dirs.map (·.1))) := by
  unfold Fa.resolve2
  split
  · rcases resolve_free (rf := rf) h hb with ⟨d', w1, e1, i1, g1, f1, p1⟩ | ⟨w1, e1, i1, g1, f1, p1⟩ <;>
    rcases resolve_free (rf := rf) i1 ha with ⟨d, w2, e2, i2, g2, f2, p2⟩ | ⟨w2, e2, i2, g2, f2, p2⟩ <;>
    rw [e1] <;> simp only [] <;> rw [e2]
    · exact .inl ⟨d, d', w2, rfl, i2, g1.trans g2, p2, p1.mono g2.past⟩
    · exact .inr ⟨w2, rfl, i2, g1.trans g2, .inl p2⟩
    · exact .inr ⟨w2, rfl, i2, g1.trans g2, .inr fun hc => p1 (f2 _ (known_grows g1 hkb) hc)⟩
    · exact .inr ⟨w2, rfl, i2, g1.trans g2, .inl p2⟩
  · rcases resolve_free (rf := rf) h ha with ⟨d, w1, e1, i1, g1, f1, p1⟩ | ⟨w1, e1, i1, g1, f1, p1⟩ <;>
    rcases resolve_free (rf := rf) i1 hb with ⟨d', w2, e2, i2, g2, f2, p2⟩ | ⟨w2, e2, i2, g2, f2, p2⟩ <;>
    rw [e1] <;> simp only [] <;> rw [e2]
    · exact .inl ⟨d, d', w2, rfl, i2, g1.trans g2, p1.mono g2.past, p2⟩
    · exact .inr ⟨w2, rfl, i2, g1.trans g2, .inr p2⟩
    · exact .inr ⟨w2, rfl, i2, g1.trans g2, .inl fun hc => p1 (f2 _ (known_grows g1 hka) hc)⟩
    · exact .inr ⟨w2, rfl, i2, g1.trans g2, .inr p2⟩

/-- What any batch is reported as, whatever happens meanwhile. -/
theorem run_free {m : Bool} {seen : List Change} : ∀ (n : Nat) (rs : List FRec), rs.length ≤ n → ∀ {w : World}, WFree m seen w →
    (∀ r ∈ rs, Cov w.k.log w.k.past r) →
    ∃ o w' res told lost, Fa.run (sys rf) rs w = (o, w', res) ∧ res.keepsRunning = true ∧ WFree m seen w' ∧ Grows w.k w'.k ∧ rs = told ++ lost ∧
      RNear w'.k.past told (fileEvents (o.map Prod.fst)) ∧ (lost = [] ∨ Stale (· ∈ w'.k.dirs.map (·.1)) lost) := by
  intro n
  induction n with
  | zero =>
    intro rs hl w hw _
    rw [List.length_eq_zero_iff.1 (Nat.le_zero.1 hl)]
    exact ⟨[], w, _, [], [], run_nil _ _, by decide, hw, .refl _, rfl, .nil, .inl rfl⟩
  | succ n ih =>
    intro rs hl w hw hc
    cases rs with
    | nil => exact ⟨[], w, _, [], [], run_nil _ _, by decide, hw, .refl _, rfl, .nil, .inl rfl⟩
    | cons r rest =>
      have hcr := hc r (by simp)
      by_cases hft : ∃ r2 rest2, rest = r2 :: rest2 ∧ r.fromTo r2 = true
      · obtain ⟨r2, rest2, rfl, hft⟩ := hft
        have hc2 := hc r2 (by simp)
        rcases resolve2_free (rf := rf) hw hcr.name hc2.name hcr.known hc2.known with ⟨p, q, w1, e1, i1, g1, p1, p2⟩ | ⟨w1, e1, i1, g1, p1⟩
        · obtain ⟨o, w', res, told, lost, e2, hk, i2, g2, hsp, t2, hst⟩ := ih rest2 (by simp at hl; omega) i1
            (fun x hx => (hc x (by simp [hx])).mono g1.log g1.past)
          refine ⟨(⟨p, .rename, r.ptype, some ⟨q, .rename, r.ptype⟩⟩, w1) :: o, w', res, r :: r2 :: told, lost,
            ?_, hk, i2, g1.trans g2, by rw [hsp]; rfl, ?_, hst⟩
          · rw [run_pair _ _ hcr.over hft, e1]
            simp only [e2]
          · have hpt : r.ptype ≠ .watcher := by unfold FRec.ptype; split <;> simp
            have : fileEvents (((⟨p, .rename, r.ptype, some ⟨q, .rename, r.ptype⟩⟩, w1) :: o).map Prod.fst) =
                ⟨p, .rename, r.ptype, some ⟨q, .rename, r.ptype⟩⟩ :: fileEvents (o.map Prod.fst) := by
              simp [fileEvents, hpt]
            rw [this]
            exact .both hft (p1.mono g2.past) (p2.mono g2.past) t2
        · refine ⟨[], w1, .wBadFd, [], r :: r2 :: rest2, ?_, by decide, i1, g1, rfl, .nil, .inr ⟨r, _, rfl, ?_⟩⟩
          · rw [run_pair _ _ hcr.over hft, e1]
          · rcases p1 with p | p
            · exact .inl p
            · exact .inr ⟨r2, rest2, rfl, hft, p⟩
      · have hal : FAlone r rest := by
          intro r2 rest2 h
          cases hx : r.fromTo r2 with
          | false => rfl
          | true => exact absurd ⟨r2, rest2, h, hx⟩ hft
        rcases resolve_free (rf := rf) hw hcr.name with ⟨p, w1, e1, i1, g1, f1, p1⟩ | ⟨w1, e1, i1, g1, f1, p1⟩
        · have hmk : ∃ mk, (if (r.created && r.onDir) = true then Fa.markSpec (sys rf) p w1 else ([], w1)) = mk ∧
              WFree m seen mk.2 ∧ Grows w1.k mk.2.k ∧ fileEvents (mk.1.map Prod.fst) = [] := by
            split
            · exact ⟨_, rfl, markSpec_w i1 _⟩
            · exact ⟨_, rfl, i1, .refl _, rfl⟩
          obtain ⟨mk, em, i2, g2, f2⟩ := hmk
          obtain ⟨o, w', res, told, lost, e3, hk, i3, g3, hsp, t3, hst⟩ := ih rest (by simp at hl; omega) i2
            (fun x hx => (hc x (by simp [hx])).mono (g1.log.trans g2.log) (g1.past.trans g2.past))
          refine ⟨mk.1 ++ (⟨p, r.effect, r.ptype, none⟩, mk.2) :: o, w', res, r :: told, lost, ?_, hk, i3, (g1.trans g2).trans g3,
            by rw [hsp]; rfl, ?_, hst⟩
          · rw [run_single _ _ hcr.over hal, e1]
            simp only [em, e3]
          · have hpt : r.ptype ≠ .watcher := by unfold FRec.ptype; split <;> simp
            rw [List.map_append, fileEvents_append, f2, List.nil_append]
            have : fileEvents (((⟨p, r.effect, r.ptype, none⟩, mk.2) :: o).map Prod.fst) =
                ⟨p, r.effect, r.ptype, none⟩ :: fileEvents (o.map Prod.fst) := by
              simp [fileEvents, hpt]
            rw [this]
            exact .one (p1.mono (g2.trans g3).past) t3
        · refine ⟨[], w1, .wBadFd, [], r :: rest, ?_, by decide, i1, g1, rfl, .nil, .inr ⟨r, _, rfl, .inl p1⟩⟩
          rw [run_single _ _ hcr.over hal, e1]

/-- The state of a watch in the middle of any history. -/
structure NInv (st : Fa.St World) (missed : Change → Prop) : Prop where
  k : KInv st.sys.k
  buf : st.buf.length = 4096
  all : ∀ c ∈ st.sys.k.log, (∃ r ∈ st.sys.k.queue, r.handle = c.handle ∧ r.name = c.name) ∨
    (∃ e ∈ fileEvents (st.out.map Prod.fst), NearMentions st.sys.k.past c e) ∨ missed c

theorem NearMentions.mono {past past' : List (Handle × Str)} (h : past <+: past') {c : Change} {e : Ev} (hm : NearMentions past c e) :
    NearMentions past' c e := by
  rcases hm with hm | ⟨a, h1, h2⟩
  · exact .inl (Near.mono h hm)
  · exact .inr ⟨a, h1, Near.mono h h2⟩

/-- The changes without a record in `q`. -/
def unread (log : List Change) (q : List FRec) : List Change := log.filter (fun c => !(q.any (fun r => r.handle == c.handle && r.name == c.name)))

theorem kept_unread (k : K) : Kept false (unread k.log k.queue) k := by
  intro c hc
  by_cases hq : k.queue.any (fun r => r.handle == c.handle && r.name == c.name) = true
  · rw [List.any_eq_true] at hq
    obtain ⟨r, hr, h2⟩ := hq
    simp only [Bool.and_eq_true, beq_iff_eq] at h2
    exact .inr ⟨r, hr, h2⟩
  · exact .inl (List.mem_filter.2 ⟨hc, by simpa using hq⟩)

theorem unread_not {log : List Change} {q : List FRec} {c : Change} (h : c ∈ unread log q) {r : FRec} (hr : r ∈ q) (h1 : r.handle = c.handle)
    (h2 : r.name = c.name) : False := by
  have := (List.mem_filter.1 h).2
  simp only [Bool.not_eq_true', List.any_eq_false, Bool.and_eq_true, beq_iff_eq, not_and] at this
  exact this r hr h1 h2

theorem op_ninv {st : Fa.St World} {missed : Change → Prop} (h : NInv st missed) (x : Do) :
    NInv { st with sys := { st.sys with k := doIt st.sys.k x } } missed := by
  have hk := doIt_kinv h.k x
  refine ⟨hk.1, h.buf, ?_⟩
  intro c hc
  rcases doIt_kept (kept_unread st.sys.k) x (fun h => by cases h) c hc with hs | hq
  · rcases h.all c (List.mem_filter.1 hs).1 with ⟨r, hr, h1, h2⟩ | ⟨e, he, hm⟩ | hm
    · exact (unread_not hs hr h1 h2).elim
    · exact .inr (.inl ⟨e, he, NearMentions.mono hk.2.past hm⟩)
    · exact .inr (.inr hm)
  · exact .inl hq

theorem read_ninv {st : Fa.St World} {missed : Change → Prop} (h : NInv st missed) (n : Nat) (sched : List (List Do × Bool))
    (hn : NoSwap (st.sys.k.queue.take n)) (hr : Roomy (st.sys.k.queue.take n)) :
    ∃ st', exec rf st (.read n sched) = .ok st' ∧ NInv st' (fun c => missed c ∨
      (c ∈ st.sys.k.log ∧ (fbatch (st.sys.k.queue.take n)).length ≤ 4096 ∧
        ∃ r, Skipped st'.sys.k (st.sys.k.queue.take n) r ∧ r.handle = c.handle ∧ r.name = c.name)) := by
  simp only [exec]
  by_cases hfit : (fbatch (st.sys.k.queue.take n)).length ≤ bufLen
  · rw [if_pos hfit]
    have hcov : ∀ r ∈ st.sys.k.queue.take n, Cov st.sys.k.log st.sys.k.past r := fun r hr => h.k.queue r (List.mem_of_mem_take hr)
    have hw : WFree false (unread st.sys.k.log (st.sys.k.queue.drop n)) { st.sys with k := { st.sys.k with queue := st.sys.k.queue.drop n }, sched := sched } :=
      WFree.mk' (take_kinv h.k n) (kept_unread { st.sys.k with queue := st.sys.k.queue.drop n }) (mild_false sched)
    obtain ⟨o, w', res, told, lost, e, hkr, iw, g, hsp, t, hst⟩ := run_free (rf := rf) _ _ (Nat.le_refl _) hw hcov
    have hrun := recv_run (sys rf) (sound rf) _ ⟨fun r hr => (hcov r hr).wf, hfit⟩ hr hn
      { st with sys := { st.sys with k := { st.sys.k with queue := st.sys.k.queue.drop n }, sched := sched } } h.buf
    simp only [e] at hrun
    simp only [hrun, Outcome.bind_ok]
    rw [if_pos hkr]
    refine ⟨_, rfl, iw.k, ?_, ?_⟩
    · have h1 := h.buf
      have h2 : bufLen = 4096 := rfl
      simp only [List.length_append, List.length_drop]
      omega
    · intro c hc
      rcases iw.kept c hc with hseen | hq
      · have hsn := List.mem_filter.1 hseen
        rcases h.all c hsn.1 with ⟨r, hr, h1, h2⟩ | ⟨e, he, hm⟩ | hm
        · rw [← List.take_append_drop n st.sys.k.queue] at hr
          rcases List.mem_append.1 hr with hr | hr
          · rw [hsp] at hr
            rcases List.mem_append.1 hr with hr | hr
            · obtain ⟨e, he, hm⟩ := rnear_mentions t hr h1 h2
              refine .inr (.inl ⟨e, ?_, hm⟩)
              simp only
              rw [List.map_append, fileEvents_append]
              exact List.mem_append_right _ he
            · refine .inr (.inr (.inr ⟨hsn.1, hfit, r, ?_, h1, h2⟩))
              rw [hsp]
              rcases hst with hst | hst
              · rw [hst] at hr; cases hr
              · exact skipped_of_stale (fun g hg => hg) hst r hr
          · exact (unread_not hseen hr h1 h2).elim
        · refine .inr (.inl ⟨e, ?_, NearMentions.mono g.past hm⟩)
          simp only
          rw [List.map_append, fileEvents_append]
          exact List.mem_append_left _ he
        · exact .inr (.inr (.inl hm))
      · exact .inl hq
  · rw [if_neg hfit]
    refine ⟨st, rfl, h.k, h.buf, fun c hc => ?_⟩
    rcases h.all c hc with h | h | h
    · exact .inl h
    · exact .inr (.inl h)
    · exact .inr (.inr (.inl h))

theorem opened_ninv {dirs : List (Handle × Str)} (hg : GoodTree dirs) (marks : List Str) (sched : List (List Do × Bool)) :
    NInv (opened rf dirs marks sched) (fun _ => False) := by
  have h0 := opened_tinv (rf := rf) (m := false) hg marks sched (mild_false sched)
  refine ⟨h0.k, h0.buf, fun c hc => ?_⟩
  rcases (show ∀ c ∈ (opened rf dirs marks sched).sys.k.log, c ∈ [] ∨ _ from h0.kept) c hc with h | h
  · cases h
  · exact .inl h

theorem NInv.imp {st : Fa.St World} {p q : Change → Prop} (h : NInv st p) (hpq : ∀ c, p c → q c) : NInv st q :=
  ⟨h.k, h.buf, fun c hc => (h.all c hc).imp id (Or.imp id (hpq c))⟩

theorem execs_ninv (ss : List Step) : ∀ {st : Fa.St World} {missed : Change → Prop}, NInv st missed → Fine rf st ss →
    ∃ st', execs rf st ss = .ok st' ∧ NInv st' (fun c => missed c ∨ MissedLate rf st ss c) := by
  induction ss with
  | nil => intro st missed h _; exact ⟨st, rfl, h.imp fun c => .inl⟩
  | cons s ss ih =>
    intro st missed h hf
    cases s with
    | op x =>
      obtain ⟨st', h1, h2⟩ := ih (op_ninv h x) (hf _ rfl)
      refine ⟨st', by rw [execs]; exact h1, h2.imp fun c hc => hc.imp id fun hc => ⟨_, rfl, hc⟩⟩
    | read n sched =>
      obtain ⟨st1, h1, h2⟩ := read_ninv (rf := rf) h n sched hf.1 hf.2.1
      obtain ⟨st', h3, h4⟩ := ih h2 (hf.2.2 _ h1)
      refine ⟨st', by rw [execs, h1]; exact h3, h4.imp fun c hc => ?_⟩
      rcases hc with (hc | hc) | hc
      · exact .inl hc
      · exact .inr ⟨st1, h1, .inl hc⟩
      · exact .inr ⟨st1, h1, .inr hc⟩

/-- `MissedLate`, to be computed. -/
def missedLateB (rf : Bool) (st : Fa.St World) : List Step → Change → Bool
  | [], _ => false
  | .op o :: ss, c => match exec rf st (.op o) with | .ok st' => missedLateB rf st' ss c | .ub _ => false
  | .read n sched :: ss, c => match exec rf st (.read n sched) with
    | .ok st' => (st.sys.k.log.contains c && decide ((fbatch (st.sys.k.queue.take n)).length ≤ 4096) && skipB st'.sys.k c false (st.sys.k.queue.take n)) ||
        missedLateB rf st' ss c
    | .ub _ => false

theorem missedLateB_iff {c : Change} (ss : List Step) : ∀ {st : Fa.St World}, missedLateB rf st ss c = true ↔ MissedLate rf st ss c := by
  induction ss with
  | nil => intro st; simp [missedLateB, MissedLate]
  | cons s ss ih =>
    intro st
    cases s with
    | op o => cases h : exec rf st (.op o) <;> simp [missedLateB, MissedLate, h, ih]
    | read n sched =>
      cases h : exec rf st (.read n sched) with
      | ub _ => simp [missedLateB, MissedLate, h]
      | ok st1 =>
        simp only [missedLateB, MissedLate, h, Outcome.ok.injEq, exists_eq_left']
        rw [Bool.or_eq_true, ih, Bool.and_eq_true, Bool.and_eq_true, decide_eq_true_iff, List.contains_eq_mem, decide_eq_true_iff,
          skipB_iff _ [] false (by simp)]
        refine or_congr ?_ Iff.rfl
        constructor
        · rintro ⟨⟨h1, h2⟩, r, a, b, x, h3, h4, h5, h6⟩
          exact ⟨h1, h2, r, ⟨a, b, x, h3, h4, by simpa using h5⟩, h6⟩
        · rintro ⟨h1, h2, r, ⟨a, b, x, h3, h4, h5⟩, h6⟩
          exact ⟨⟨h1, h2⟩, r, a, b, x, h3, h4, by simpa using h5, h6⟩

end Verif.Lemmas.FKer
