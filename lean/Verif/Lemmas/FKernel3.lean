import Verif.Lemmas.FKernel2
/-! Every history: what is delivered is about logged changes (C84). -/
namespace Verif.Lemmas.FKer
open Verif Verif.Model Verif.Model.Fa Verif.Model.FKer Verif.Spec Verif.Spec.FKer Verif.Lemmas.Fa

/-- The change is one the record's bits speak of. -/
def Is (c : Change) (r : FRec) (kind : Kind) : Prop :=
  c.handle = r.handle ∧ c.name = r.name ∧ c.kind = kind ∧ c.onDir = r.onDir

def bitOf (r : FRec) : Kind → Bool
  | .create => r.created | .delete => r.deleted | .modify => r.modified | .moveFrom => r.movedFrom | .moveTo => r.movedTo

/-- A record whose bits are all about changes in the log. -/
structure Cov (log : List Change) (past : List (Handle × Str)) (r : FRec) : Prop where
  wf : r.WF
  over : r.overflow = false
  name : okName r.name = true
  some' : ∃ kind, bitOf r kind = true
  bits : ∀ kind, bitOf r kind = true → ∃ c ∈ log, Is c r kind
  known : r.handle ∈ past.map (·.1)

theorem Cov.mono {log log' : List Change} {past past' : List (Handle × Str)} {r : FRec} (h : Cov log past r) (hl : log <+: log') (hp : past <+: past') :
    Cov log' past' r where
  wf := h.wf
  over := h.over
  name := h.name
  some' := h.some'
  bits := fun k hk => let ⟨c, h1, h2⟩ := h.bits k hk; ⟨c, hl.subset h1, h2⟩
  known := by
    obtain ⟨e, h1, h2⟩ := List.mem_map.1 h.known
    exact List.mem_map.2 ⟨e, hp.subset h1, h2⟩

theorem recOf_bit (h : Handle) (kind : Kind) (n : Str) (od : Bool) (who : Who) (kind' : Kind) :
    bitOf (recOf h kind n od who) kind' = decide (kind = kind') := by
  cases kind' <;> simp only [bitOf, recOf_created, recOf_deleted, recOf_modified, recOf_from, recOf_to]

/-- What always holds. -/
structure KInv (k : K) : Prop extends Inv k where
  pastShort : ∀ e ∈ k.past, e.2 ≠ [] ∧ e.2.length ≤ 3829
  queue : ∀ r ∈ k.queue, Cov k.log k.past r
  logged : ∀ c ∈ k.log, (c.handle, c.dir) ∈ k.past ∧ okName c.name = true

/-- One kernel is a later state of the other. -/
structure Grows (k k' : K) : Prop where
  log : k.log <+: k'.log
  past : k.past <+: k'.past

theorem Grows.refl (k : K) : Grows k k := ⟨List.prefix_rfl, List.prefix_rfl⟩
theorem Grows.trans {a b c : K} (h1 : Grows a b) (h2 : Grows b c) : Grows a c := ⟨h1.log.trans h2.log, h1.past.trans h2.past⟩

theorem merge_cov {log : List Change} {past : List (Handle × Str)} {x r : FRec} (hx : Cov log past x) (hr : Cov log past r) (hs : same x r = true) :
    Cov log past { x with mask := x.mask ||| r.mask } := by
  unfold same at hs
  simp only [Bool.and_eq_true, beq_iff_eq] at hs
  obtain ⟨⟨⟨h1, h2⟩, _⟩, h4⟩ := hs
  have hor : ∀ i, ({ x with mask := x.mask ||| r.mask } : FRec).bit i = (x.bit i || r.bit i) := by
    intro i; simp only [FRec.bit, BitVec.getLsbD_or]
  have hb : ∀ kind, bitOf { x with mask := x.mask ||| r.mask } kind = (bitOf x kind || bitOf r kind) := by
    intro kind; cases kind <;> exact hor _
  have hod : ({ x with mask := x.mask ||| r.mask } : FRec).onDir = x.onDir := by
    have : ({ x with mask := x.mask ||| r.mask } : FRec).onDir = (x.onDir || r.onDir) := hor 30
    rw [this, ← h4, Bool.or_self]
  have hov : ({ x with mask := x.mask ||| r.mask } : FRec).overflow = false := by
    have : ({ x with mask := x.mask ||| r.mask } : FRec).overflow = (x.overflow || r.overflow) := hor 14
    rw [this, hx.over, hr.over]; rfl
  refine ⟨⟨hx.wf.fsid, hx.wf.noZero, hx.wf.short, hx.wf.term, fun h => by rw [hov] at h; cases h⟩, hov, hx.name, ?_, ?_, hx.known⟩
  · obtain ⟨k, hk⟩ := hx.some'
    exact ⟨k, by rw [hb, hk, Bool.true_or]⟩
  · intro kind hk
    rw [hb, Bool.or_eq_true] at hk
    rcases hk with hk | hk
    · obtain ⟨c, c1, c2, c3, c4, c5⟩ := hx.bits kind hk
      exact ⟨c, c1, c2, c3, c4, by rw [c5, hod]⟩
    · obtain ⟨c, c1, c2, c3, c4, c5⟩ := hr.bits kind hk
      exact ⟨c, c1, by rw [c2, ← h1], by rw [c3, ← h2], c4, by rw [c5, hod, h4]⟩

theorem mergeInto_cov {log : List Change} {past : List (Handle × Str)} {r : FRec} (hr : Cov log past r) :
    ∀ {q q' : List FRec}, (∀ x ∈ q, Cov log past x) → mergeInto q r = some q' → ∀ x ∈ q', Cov log past x := by
  intro q
  induction q with
  | nil => intro q' _ h; cases h
  | cons y q ih =>
    intro q' hq h
    rw [mergeInto] at h
    split at h
    · rename_i hs
      injection h with h
      subst h
      intro x hx
      rcases List.mem_cons.1 hx with rfl | hx
      · exact merge_cov (hq y (by simp)) hr hs
      · exact hq x (List.mem_cons_of_mem _ hx)
    · rw [Option.map_eq_some_iff] at h
      obtain ⟨q2, h1, rfl⟩ := h
      intro x hx
      rcases List.mem_cons.1 hx with rfl | hx
      · exact hq x (by simp)
      · exact ih (fun z hz => hq z (List.mem_cons_of_mem _ hz)) h1 x hx

theorem enqueue_cov {log : List Change} {past : List (Handle × Str)} {r : FRec} (hr : Cov log past r) {q : List FRec} (hq : ∀ x ∈ q, Cov log past x) (m : Bool) :
    ∀ x ∈ enqueue q r m, Cov log past x := by
  have happ : ∀ x ∈ q ++ [r], Cov log past x := by
    intro x hx
    rcases List.mem_append.1 hx with hx | hx
    · exact hq x hx
    · rw [List.mem_singleton] at hx; subst hx; exact hr
  unfold enqueue
  cases m with
  | false => simpa using happ
  | true =>
    simp only [if_true]
    cases h : mergeInto q r with
    | none => exact happ
    | some q' => exact mergeInto_cov hr hq h

theorem notify_kinv {k : K} (hk : KInv k) (d n : Str) (kind : Kind) (od : Bool) (who : Who) (hn : okName n = true) :
    KInv (notify k d n kind od who) ∧ Grows k (notify k d n kind od who) := by
  have hf := notify_frame k d n kind od who
  unfold notify at hf ⊢
  cases hh : handleOf k d with
  | none => exact ⟨hk, .refl _⟩
  | some h =>
    simp only [hh] at hf ⊢
    split
    · have hg : Grows k { k with
          queue := enqueue k.queue (recOf h kind n od who) who.merge
          log := k.log ++ [{ handle := h, dir := d, name := n, kind := kind, onDir := od }] } := ⟨List.prefix_append _ _, List.prefix_rfl⟩
      have hmem := hk.past _ (handleOf_mem hh)
      refine ⟨⟨hk.toInv.same ⟨rfl, rfl, rfl⟩, hk.pastShort, ?_, ?_⟩, hg⟩
      · refine enqueue_cov ?_ (fun x hx => (hk.queue x hx).mono hg.log hg.past) _
        refine ⟨recOf_wf hn, recOf_over _ _ _ _ _, hn, ⟨kind, by rw [recOf_bit]; simp⟩, ?_, List.mem_map.2 ⟨_, hmem, rfl⟩⟩
        intro kind' hb
        rw [recOf_bit, decide_eq_true_eq] at hb
        subst hb
        exact ⟨_, List.mem_append_right _ List.mem_cons_self, rfl, rfl, rfl, by rw [recOf_ondir]⟩
      · intro c hc
        rcases List.mem_append.1 hc with hc | hc
        · exact hk.logged c hc
        · rw [List.mem_singleton] at hc; subst hc
          exact ⟨hmem, hn⟩
    · exact ⟨hk, .refl _⟩

theorem kinv_dirs {k : K} (hk : KInv k) {dirs : List (Handle × Str)} {marked : List Handle} {more : List (Handle × Str)}
    (h : Inv { k with dirs := dirs, marked := marked, past := k.past ++ more }) (hm : ∀ e ∈ more, e.2 ≠ [] ∧ e.2.length ≤ 3829) :
    KInv { k with dirs := dirs, marked := marked, past := k.past ++ more } where
  toInv := h
  pastShort := by
    intro e he
    rcases List.mem_append.1 he with he | he
    · exact hk.pastShort e he
    · exact hm e he
  queue := fun r hr => (hk.queue r hr).mono List.prefix_rfl (List.prefix_append _ _)
  logged := fun c hc => ⟨List.mem_append_left _ (hk.logged c hc).1, (hk.logged c hc).2⟩

theorem moveDirF_kinv {k : K} (hk : KInv k) (who : Who) (d1 n1 d2 n2 : Str) :
    KInv (moveDirF k who d1 n1 d2 n2) ∧ Grows k (moveDirF k who d1 n1 d2 n2) := by
  have hI := hk.toInv
  simp only [moveDirF]
  split
  · rename_i hc
    simp only [Bool.and_eq_true, Bool.not_eq_true', List.all_eq_true, decide_eq_true_eq] at hc
    have h1 := notify_kinv hk d1 n1 .moveFrom true who hc.1.1.1.1.1.1
    have h2 := notify_kinv h1.1 d2 n2 .moveTo true who hc.1.1.1.1.1.2
    have hf1 := notify_frame k d1 n1 .moveFrom true who
    have hf2 := notify_frame (notify k d1 n1 .moveFrom true who) d2 n2 .moveTo true who
    generalize hk1 : notify (notify k d1 n1 .moveFrom true who) d2 n2 .moveTo true who = k1 at h2 hf2
    have hd : k1.dirs = k.dirs := hf2.1.trans hf1.1
    have hJ := h2.1.toInv
    have hqne : child d2 n2 ≠ [] := by simp [child]
    have hnew : ∀ e ∈ k1.dirs.map (fun e => (e.1, repath (child d1 n1) (child d2 n2) e.2)), e.2 ≠ [] ∧ e.2.length ≤ 3829 := by
      intro e he
      obtain ⟨a, ha, rfl⟩ := List.mem_map.1 he
      rw [hd] at ha
      refine ⟨?_, hc.2 a ha⟩
      simp only [repath]
      split
      · simp [hqne]
      · exact (hI.short a ha).2.1
    refine ⟨kinv_dirs (marked := k1.marked) h2.1 ⟨?_, ?_, ?_, ?_, ?_⟩ hnew, ?_⟩
    · simp only [List.map_map]; exact hJ.handles
    · simp only [List.map_map]
      have : ((fun e : Handle × Str => e.2) ∘ fun e : Handle × Str => (e.1, repath (child d1 n1) (child d2 n2) e.2)) =
        fun e => repath (child d1 n1) (child d2 n2) e.2 := rfl
      rw [this]
      refine nodup_map_on (List.Pairwise.of_map (fun x => x.1) (fun a b hab h => hab (congrArg _ h)) hJ.handles) ?_
      intro a ha b hb hab
      rw [hd] at ha hb
      have := repath_inj (hc.1.2 a ha) (hc.1.2 b hb) hab
      have e1 := handleOf_of_mem hI.paths (show (a.1, a.2) ∈ _ from ha)
      have e2 := handleOf_of_mem hI.paths (show (b.1, b.2) ∈ _ from hb)
      rw [this, e2] at e1
      injection e1 with e1
      exact Prod.ext e1.symm this
    · intro e he
      have := hnew e he
      obtain ⟨a, ha, rfl⟩ := List.mem_map.1 he
      exact ⟨(hJ.short a ha).1, this.1, this.2⟩
    · intro e he; exact List.mem_append_right _ he
    · intro x hx
      simp only [List.map_append, List.mem_append]
      exact .inl (hJ.marked x hx)
    · exact (h1.2.trans h2.2).trans ⟨List.prefix_rfl, List.prefix_append _ _⟩
  · exact ⟨hk, .refl _⟩

theorem swapDirsF_kinv {k : K} (hk : KInv k) (who : Who) (d1 n1 d2 n2 : Str) :
    KInv (swapDirsF k who d1 n1 d2 n2) ∧ Grows k (swapDirsF k who d1 n1 d2 n2) := by
  simp only [swapDirsF]
  split
  · rename_i hc
    simp only [Bool.and_eq_true, Bool.not_eq_true', List.all_eq_true, decide_eq_true_eq] at hc
    obtain ⟨⟨⟨⟨⟨⟨o1, o2⟩, _⟩, _⟩, c1⟩, c2⟩, c3⟩ := hc
    have h1 := notify_kinv hk d1 n1 .moveFrom true who o1
    have h2 := notify_kinv h1.1 d2 n2 .moveTo true who o2
    have h3 := notify_kinv h2.1 d2 n2 .moveFrom true who o2
    have h4 := notify_kinv h3.1 d1 n1 .moveTo true who o1
    have hd := (((notify_frame _ d1 n1 .moveTo true who).1.trans (notify_frame _ d2 n2 .moveFrom true who).1).trans
      (notify_frame _ d2 n2 .moveTo true who).1).trans (notify_frame k d1 n1 .moveFrom true who).1
    have hg := ((h1.2.trans h2.2).trans h3.2).trans h4.2
    have h4 := h4.1
    generalize notify (notify (notify (notify k d1 n1 .moveFrom true who) d2 n2 .moveTo true who) d2 n2 .moveFrom true who) d1 n1 .moveTo true who = k4
      at h4 hd hg
    have hp : child d1 n1 ≠ [] := by simp [child]
    have hq : child d2 n2 ≠ [] := by simp [child]
    refine ⟨kinv_dirs (marked := k4.marked) h4 (inv_swap h4.toInv c1 c2 hp hq (by rw [hd]; exact c3)) ?_, ?_⟩
    · intro e he
      obtain ⟨a, ha, rfl⟩ := List.mem_map.1 he
      rw [hd] at ha
      exact ⟨swapPath_ne hp hq (hk.toInv.short a ha).2.1, c3 a ha⟩
    · exact hg.trans ⟨List.prefix_rfl, List.prefix_append _ _⟩
  · exact ⟨hk, .refl _⟩

theorem apply_kinv {k : K} (hk : KInv k) (who : Who) (op : Op) : KInv (apply k who op) ∧ Grows k (apply k who op) := by
  have hI := hk.toInv
  cases op with
  | create d n =>
    simp only [apply]
    split
    · rename_i hn; exact notify_kinv hk _ _ _ _ _ hn
    · exact ⟨hk, .refl _⟩
  | modify d n =>
    simp only [apply]
    split
    · rename_i hn; exact notify_kinv hk _ _ _ _ _ hn
    · exact ⟨hk, .refl _⟩
  | unlink d n =>
    simp only [apply]
    split
    · rename_i hn; exact notify_kinv hk _ _ _ _ _ hn
    · exact ⟨hk, .refl _⟩
  | move d1 n1 d2 n2 =>
    simp only [apply]
    split
    · rename_i hn
      simp only [Bool.and_eq_true] at hn
      have h1 := notify_kinv hk d1 n1 .moveFrom false who hn.1.1
      have h2 := notify_kinv h1.1 d2 n2 .moveTo false who hn.1.2
      exact ⟨h2.1, h1.2.trans h2.2⟩
    · exact ⟨hk, .refl _⟩
  | mkdir d n h =>
    simp only [apply]
    split
    · rename_i hc
      simp only [Bool.and_eq_true, Bool.not_eq_true', decide_eq_true_eq, List.contains_eq_mem, decide_eq_false_iff_not] at hc
      obtain ⟨⟨⟨⟨⟨hn, _⟩, hnew⟩, hlen⟩, hfresh⟩, hh⟩ := hc
      have hold : ∀ e ∈ k.dirs, e.1 ≠ h := fun e he hx => hfresh (List.mem_map.2 ⟨e, hI.past _ he, hx⟩)
      have h0 : KInv { k with dirs := k.dirs ++ [(h, child d n)], past := k.past ++ [(h, child d n)] } := by
        refine kinv_dirs hk ⟨?_, ?_, ?_, ?_, ?_⟩ ?_
        · simp only [List.map_append, List.map_cons, List.map_nil]
          rw [List.nodup_append]
          refine ⟨hI.handles, by simp, ?_⟩
          intro a ha b hb
          simp only [List.mem_singleton] at hb
          subst hb
          obtain ⟨e, he, rfl⟩ := List.mem_map.1 ha
          exact hold e he
        · simp only [List.map_append, List.map_cons, List.map_nil]
          rw [List.nodup_append]
          refine ⟨hI.paths, by simp, ?_⟩
          intro a ha b hb hab
          simp only [List.mem_singleton] at hb
          subst hb
          subst hab
          obtain ⟨⟨g, p⟩, he, hp⟩ := List.mem_map.1 ha
          simp only at hp
          subst hp
          have := (there_iff k (child d n)).2 ⟨g, he⟩
          rw [hnew] at this; cases this
        · intro e he
          simp only [List.mem_append, List.mem_singleton] at he
          rcases he with he | rfl
          · exact hI.short e he
          · exact ⟨hh, by simp [child], hlen⟩
        · intro e he
          simp only [List.mem_append, List.mem_singleton] at he ⊢
          exact he.imp (hI.past e) id
        · intro x hx
          simp only [List.map_append, List.mem_append]
          exact .inl (hI.marked x hx)
        · intro e he
          rw [List.mem_singleton] at he; subst he
          exact ⟨by simp [child], hlen⟩
      have h1 := notify_kinv h0 d n .create true who hn
      refine ⟨h1.1, Grows.trans (b := { k with dirs := k.dirs ++ [(h, child d n)], past := k.past ++ [(h, child d n)] }) ⟨List.prefix_rfl, List.prefix_append _ _⟩ h1.2⟩
    · exact ⟨hk, .refl _⟩
  | rmdir d n =>
    simp only [apply]
    split
    · rename_i hc
      simp only [Bool.and_eq_true] at hc
      have h1 := notify_kinv hk d n .delete true who hc.1.1
      have hJ := h1.1.toInv
      refine ⟨?_, ⟨h1.2.log, h1.2.past⟩⟩
      exact ⟨⟨hJ.handles.sublist (List.filter_sublist.map _), hJ.paths.sublist (List.filter_sublist.map _),
        fun e he => hJ.short e (List.mem_filter.1 he).1, fun e he => hJ.past e (List.mem_filter.1 he).1,
        fun e he => hJ.marked e (List.mem_filter.1 he).1⟩, h1.1.pastShort, h1.1.queue, h1.1.logged⟩
    · exact ⟨hk, .refl _⟩
  | moveDir d1 n1 d2 n2 => exact moveDirF_kinv hk who d1 n1 d2 n2
  | moveOver d1 n1 d2 n2 =>
    simp only [apply]
    split
    · have hv : KInv (vanish k (child d2 n2)) := ⟨inv_vanish hk.toInv _, hk.pastShort, hk.queue, hk.logged⟩
      have h := moveDirF_kinv hv who d1 n1 d2 n2
      exact ⟨h.1, h.2.log, h.2.past⟩
    · exact ⟨hk, .refl _⟩
  | swapDirs d1 n1 d2 n2 => exact swapDirsF_kinv hk who d1 n1 d2 n2

theorem doIt_kinv {k : K} (hk : KInv k) (x : Do) : KInv (doIt k x) ∧ Grows k (doIt k x) := by
  unfold doIt
  split
  · exact apply_kinv hk _ _
  · exact ⟨hk, .refl _⟩

theorem doIts_kinv (xs : List Do) : ∀ {k : K}, KInv k → KInv (xs.foldl doIt k) ∧ Grows k (xs.foldl doIt k) := by
  induction xs with
  | nil => intro k hk; exact ⟨hk, .refl _⟩
  | cons x xs ih =>
    intro k hk
    have h1 := doIt_kinv hk x
    have h2 := ih h1.1
    exact ⟨h2.1, h1.2.trans h2.2⟩

theorem tick_kinv {w : World} (hk : KInv w.k) : KInv (tick w).2.k ∧ Grows w.k (tick w).2.k := by
  unfold tick
  split
  · exact ⟨hk, .refl _⟩
  · exact doIts_kinv _ hk

theorem mark_kinv {k : K} (hk : KInv k) {h : Handle} {p : Str} (hh : handleOf k p = some h) :
    KInv { k with marked := if k.marked.contains h then k.marked else h :: k.marked } := by
  refine ⟨⟨hk.handles, hk.paths, hk.short, hk.past, ?_⟩, hk.pastShort, hk.queue, hk.logged⟩
  intro x hx
  simp only at hx
  split at hx
  · exact hk.marked x hx
  · rcases List.mem_cons.1 hx with rfl | hx
    · exact List.mem_map.2 ⟨_, hk.past _ (handleOf_mem hh), rfl⟩
    · exact hk.marked x hx

variable {rf : Bool}

/-- The worlds during a read. -/
theorem later_kinv {w0 w : World} (hk : KInv w0.k) (hw : Fa.Later (sys rf) w0 w) : KInv w.k ∧ Grows w0.k w.k := by
  induction hw with
  | now => exact ⟨hk, .refl _⟩
  | realpath p _ ih =>
    have := tick_kinv ih.1
    exact ⟨this.1, ih.2.trans this.2⟩
  | isDir p _ ih =>
    have := tick_kinv ih.1
    exact ⟨this.1, ih.2.trans this.2⟩
  | readlink fd _ ih =>
    have := tick_kinv ih.1
    exact ⟨this.1, ih.2.trans this.2⟩
  | @openByHandle w h _ ih =>
    have := tick_kinv ih.1
    have h2 : ((sys rf).openByHandle w h).2.k = (tick w).2.k := by
      simp only [sys]; split <;> rfl
    rw [h2]
    exact ⟨this.1, ih.2.trans this.2⟩
  | @mark w p _ ih =>
    have := tick_kinv ih.1
    simp only [sys]
    split
    · exact ⟨this.1, ih.2.trans this.2⟩
    · split
      · exact ⟨this.1, ih.2.trans this.2⟩
      · rename_i h hh
        exact ⟨mark_kinv this.1 hh, ih.2.trans (this.2.trans ⟨List.prefix_rfl, List.prefix_rfl⟩)⟩

/-- What a look-up says: a path the directory has or had. -/
theorem resolve_past {w : World} (hk : KInv w.k) {r : FRec} (hn : okName r.name = true) {p : Str}
    (hr : (Fa.resolve (sys rf) r w).1 = some p) :
    ∃ d, (r.handle, d) ∈ (Fa.resolve (sys rf) r w).2.k.past ∧
      (p = d ++ b!"/" ++ r.name ∨
        (p = d ++ b!" (deleted)" ++ b!"/" ++ r.name ∧ r.handle ∉ (Fa.resolve (sys rf) r w).2.k.dirs.map (·.1))) := by
  unfold Fa.resolve at hr ⊢
  have ht := tick_kinv hk
  cases ho : (tick w).2.k.dirs.lookup r.handle with
  | none =>
    have e : (sys rf).openByHandle w r.handle = ((-1, 116), (tick w).2) := by simp only [sys, ho]
    rw [e] at hr
    simp at hr
  | some q =>
    have e : (sys rf).openByHandle w r.handle = ((3, 0), { (tick w).2 with cur := r.handle }) := by simp only [sys, ho]
    rw [e] at hr ⊢
    simp only at hr ⊢
    rw [if_neg (by decide)] at hr ⊢
    have hmem : (r.handle, q) ∈ (tick w).2.k.past := ht.1.past _ (lookup_mem' ho)
    have hg := tick_kinv (w := { (tick w).2 with cur := r.handle }) ht.1
    have hcur : (tick { (tick w).2 with cur := r.handle }).2.cur = r.handle := by
      unfold tick; split <;> rfl
    simp only [sys, hcur] at hr ⊢
    rw [if_neg (okName_facts hn).2.2.2] at hr
    injection hr with hr
    generalize hk' : (tick { (tick w).2 with cur := r.handle }).2.k = k' at hr hg ⊢
    unfold linkOf at hr
    cases hq : k'.dirs.lookup r.handle with
    | some d =>
      rw [hq] at hr
      have hm := hg.1.past _ (lookup_mem' hq)
      have hs := hg.1.pastShort _ hm
      rw [clip_eq hs.1 (by have := hs.2; simp only at this; omega)] at hr
      exact ⟨d, hm, .inl hr.symm⟩
    | none =>
      rw [hq] at hr
      simp only at hr
      have hm : (r.handle, q) ∈ k'.past.filter (fun e => e.1 == r.handle) :=
        List.mem_filter.2 ⟨hg.2.past.subset hmem, by simp⟩
      cases hlast : (k'.past.filter (fun e => e.1 == r.handle)).getLast? with
      | none =>
        rw [List.getLast?_eq_none_iff] at hlast
        rw [hlast] at hm; cases hm
      | some x =>
        have hx := List.mem_of_getLast? hlast
        obtain ⟨hx1, hx2⟩ := List.mem_filter.1 hx
        simp only [beq_iff_eq] at hx2
        have hs := hg.1.pastShort _ hx1
        rw [hlast] at hr
        simp only [Option.map_some, Option.getD_some] at hr
        rw [clip_eq (by simp) (by simp only [List.length_append]; have := hs.2; simp; omega)] at hr
        refine ⟨x.2, by rw [← hx2]; exact hx1, .inr ⟨hr.symm, ?_⟩⟩
        intro hc
        obtain ⟨y, hy1, hy2⟩ := List.mem_map.1 hc
        have := lookup_of_mem hg.1.handles (show (y.1, y.2) ∈ _ from hy1)
        rw [hy2, hq] at this
        cases this

/-- A looked-up path, seen from the end of the read. -/
theorem wasAt_near {w0 w1 : World} (hk : KInv w0.k) {r : FRec} (hn : okName r.name = true) {p : Str}
    (h : Fa.WasAt (sys rf) w0 w1 r p) {c : Change} (h1 : c.handle = r.handle) (h2 : c.name = r.name) : Near w1.k.past c p := by
  obtain ⟨w, hw, hr, hl⟩ := h
  have hkw := later_kinv hk hw
  obtain ⟨d, hd, hp⟩ := resolve_past hkw.1 hn hr
  have hk2 := later_kinv hkw.1 (resolve_later (sys rf) w r)
  have hd' := (later_kinv hk2.1 hl).2.past.subset hd
  rcases hp with rfl | ⟨rfl, _⟩
  · exact .inl ⟨d, by rw [h1]; exact hd', by rw [h2]⟩
  · exact .inr ⟨d, by rw [h1]; exact hd', by rw [h2]⟩

theorem eff_bit {r : FRec} (h : ∃ kind, bitOf r kind = true) : ∃ kind, bitOf r kind = true ∧ r.effect = effectDue kind := by
  unfold FRec.effect
  cases h1 : r.created
  · cases h2 : r.deleted
    · cases h3 : r.modified
      · cases h4 : r.movedFrom
        · cases h5 : r.movedTo
          · obtain ⟨k, hk⟩ := h
            cases k <;> simp only [bitOf, h1, h2, h3, h4, h5] at hk <;> cases hk
          · exact ⟨.moveTo, h5, by simp [effectDue]⟩
        · exact ⟨.moveFrom, h4, by simp [effectDue]⟩
      · exact ⟨.modify, h3, by simp [effectDue]⟩
    · exact ⟨.delete, h2, by simp [effectDue]⟩
  · exact ⟨.create, h1, by simp [effectDue]⟩

theorem is_type {c : Change} {r : FRec} {kind : Kind} (h : Is c r kind) : r.ptype = typeOf c := by
  unfold FRec.ptype typeOf; rw [h.2.2.2]

/-- What is drawn from records about logged changes is genuine. -/
theorem drawn_genuine {At' : Change → Str → Prop} {w0 w1 : World} (hk : KInv w0.k) (hl : Fa.Later (sys rf) w0 w1)
    (hat : ∀ r p, okName r.name = true → Fa.WasAt (sys rf) w0 w1 r p → ∀ c : Change, c.handle = r.handle → c.name = r.name → At' c p)
    {rs : List FRec} {es : List Ev}
    (hc : ∀ r ∈ rs, Cov w0.k.log w0.k.past r) (hd : Fa.Drawn (Fa.WasAt (sys rf) w0 w1) rs es) : ∀ e ∈ es, Genuine At' w1.k.log e := by
  have hg := (later_kinv hk hl).2
  have pairCase : ∀ (a b t : FRec) (p q : Str), a.movedFrom = true → b.movedTo = true → Cov w0.k.log w0.k.past a → Cov w0.k.log w0.k.past b →
      (t = a ∨ t = b) → Fa.WasAt (sys rf) w0 w1 a p → Fa.WasAt (sys rf) w0 w1 b q →
      Genuine At' w1.k.log ⟨p, .rename, t.ptype, some ⟨q, .rename, t.ptype⟩⟩ := by
    intro a b t p q ha hb ca cb ht wa wb
    obtain ⟨c, c1, c2⟩ := ca.bits .moveFrom ha
    obtain ⟨c', c1', c2'⟩ := cb.bits .moveTo hb
    refine ⟨c, hg.log.subset c1, c', hg.log.subset c1', c2.2.2.1, c2'.2.2.1, hat a p ca.name wa c c2.1 c2.2.1,
      hat b q cb.name wb c' c2'.1 c2'.2.1, rfl, rfl, rfl, ?_⟩
    rcases ht with rfl | rfl
    · exact .inl (is_type c2)
    · exact .inr (is_type c2')
  induction hd with
  | stop => intro e he; cases he
  | @one r rest p es h1 _ ih =>
    intro e he
    rcases List.mem_cons.1 he with rfl | he
    · have hr := hc r (by simp)
      obtain ⟨kind, hb, hef⟩ := eff_bit hr.some'
      obtain ⟨c, c1, c2⟩ := hr.bits kind hb
      exact ⟨c, hg.log.subset c1, hat r p hr.name h1 c c2.1 c2.2.1, by rw [c2.2.2.1]; exact hef, is_type c2⟩
    · exact ih (fun r hr => hc r (List.mem_cons_of_mem _ hr)) e he
  | @pair a b rest p q es h0 h1 h2 _ ih =>
    intro e he
    rcases List.mem_cons.1 he with rfl | he
    · simp only [FRec.fromTo, Bool.and_eq_true] at h0
      exact pairCase a b a p q h0.1.2 h0.2 (hc a (by simp)) (hc b (by simp)) (.inl rfl) h1 h2
    · exact ih (fun r hr => hc r (by simp [hr])) e he
  | @swapped a b rest p q es h0 h1 h2 _ ih =>
    intro e he
    rcases List.mem_cons.1 he with rfl | he
    · simp only [FRec.toFrom, Bool.and_eq_true] at h0
      exact pairCase b a a q p h0.2 h0.1.2 (hc b (by simp)) (hc a (by simp)) (.inr rfl) h2 h1
    · exact ih (fun r hr => hc r (List.mem_cons_of_mem _ hr)) e he

theorem Near.mono {past past' : List (Handle × Str)} (h : past <+: past') {c : Change} {p : Str} (hn : Near past c p) : Near past' c p := by
  rcases hn with ⟨d, h1, h2⟩ | ⟨d, h1, h2⟩
  · exact .inl ⟨d, h.subset h1, h2⟩
  · exact .inr ⟨d, h.subset h1, h2⟩

theorem Genuine.mono {W W' : Change → Str → Prop} {log log' : List Change} (hl : log <+: log') (hW : ∀ c p, W c p → W' c p) {e : Ev}
    (he : Genuine W log e) : Genuine W' log' e := by
  unfold Genuine at he ⊢
  cases ha : e.assoc with
  | none =>
    rw [ha] at he
    obtain ⟨c, h1, h2, h3⟩ := he
    exact ⟨c, hl.subset h1, hW _ _ h2, h3⟩
  | some a =>
    rw [ha] at he
    obtain ⟨c, h1, c', h2, h3, h4, h5, h6, h7⟩ := he
    exact ⟨c, hl.subset h1, c', hl.subset h2, h3, h4, hW _ _ h5, hW _ _ h6, h7⟩

theorem fileEvents_append (a b : List Ev) : fileEvents (a ++ b) = fileEvents a ++ fileEvents b := List.filter_append ..

/-- The state of a watch in the middle of a history. -/
structure HInv (st : Fa.St World) : Prop where
  k : KInv st.sys.k
  out : ∀ e ∈ fileEvents (st.out.map Prod.fst), Genuine (Near st.sys.k.past) st.sys.k.log e

theorem take_kinv {k : K} (hk : KInv k) (n : Nat) : KInv { k with queue := k.queue.drop n } :=
  ⟨hk.toInv.same ⟨rfl, rfl, rfl⟩, hk.pastShort, fun r hr => hk.queue r (List.mem_of_mem_drop hr), hk.logged⟩

theorem exec_hinv {st st' : Fa.St World} (h : HInv st) (s : Step) (he : exec rf st s = .ok st') : HInv st' := by
  cases s with
  | op x =>
    simp only [exec, Outcome.ok.injEq] at he
    subst he
    have := doIt_kinv h.k x
    exact ⟨this.1, fun e hm => Genuine.mono this.2.log (fun _ _ => Near.mono this.2.past) (h.out e hm)⟩
  | read n sched =>
    simp only [exec] at he
    split at he
    · rename_i hfit
      obtain ⟨⟨st1, res⟩, h1, h2⟩ := bind_inv he
      simp only at h2
      split at h2
      · simp only [Outcome.pure_eq, Outcome.ok.injEq] at h2
        subst h2
        have hk0 := take_kinv h.k n
        have hcov : ∀ r ∈ st.sys.k.queue.take n, Cov st.sys.k.log st.sys.k.past r := fun r hr => h.k.queue r (List.mem_of_mem_take hr)
        obtain ⟨new, o1, o2, o3⟩ := recv_drawn (sys rf) (sound rf) _ ⟨fun r hr => (hcov r hr).wf, hfit⟩ _ _ _ h1
        have hg := drawn_genuine (rf := rf) (w0 := { st.sys with k := { st.sys.k with queue := st.sys.k.queue.drop n }, sched := sched }) hk0 o3 (fun r p hn hw c => wasAt_near hk0 hn hw) hcov o2
        have hkk := later_kinv (rf := rf) (w0 := { st.sys with k := { st.sys.k with queue := st.sys.k.queue.drop n }, sched := sched }) hk0 o3
        refine ⟨hkk.1, ?_⟩
        intro e hm
        rw [o1, List.map_append, fileEvents_append] at hm
        rcases List.mem_append.1 hm with hm | hm
        · exact Genuine.mono hkk.2.log (fun _ _ => Near.mono hkk.2.past) (h.out e hm)
        · exact hg e hm
      · cases h2
    · injection he with he; subst he; exact h

theorem execs_hinv (ss : List Step) : ∀ {st st' : Fa.St World}, HInv st → execs rf st ss = .ok st' → HInv st' := by
  induction ss with
  | nil => intro st st' h he; cases he; exact h
  | cons s ss ih =>
    intro st st' h he
    rw [execs] at he
    obtain ⟨st1, h1, h2⟩ := bind_inv he
    exact ih (exec_hinv h s h1) h2

theorem doMark_hinv {st : Fa.St World} (h : HInv st) (p : Str) : HInv (doMark (sys rf) p st).1 := by
  have hl := mark_later (sys rf) p st (w0 := st.sys) .now
  have hk := later_kinv h.k hl
  refine ⟨hk.1, ?_⟩
  intro e he
  have : fileEvents ((doMark (sys rf) p st).1.out.map Prod.fst) = fileEvents (st.out.map Prod.fst) := by
    unfold Fa.doMark
    repeat' split
    all_goals simp [fileEvents, sendMsg, St.send]
  rw [this] at he
  exact Genuine.mono hk.2.log (fun _ _ => Near.mono hk.2.past) (h.out e he)

theorem kinv_open {dirs : List (Handle × Str)} (hg : GoodTree dirs) : KInv { dirs := dirs, past := dirs } where
  handles := hg.handles
  paths := hg.paths
  short := fun e he => ⟨(hg.short e he).1, (hg.canon e he).1, (hg.short e he).2⟩
  past := fun _ h => h
  marked := by intro h hh; cases hh
  pastShort := fun e he => ⟨(hg.canon e he).1, (hg.short e he).2⟩
  queue := by intro r hr; cases hr
  logged := by intro c hc; cases hc

theorem opened_hinv {dirs : List (Handle × Str)} (hg : GoodTree dirs) (marks : List Str) (sched : List (List Do × Bool)) :
    HInv (opened rf dirs marks sched) := by
  unfold opened
  have : ∀ (ms : List Str) (st : Fa.St World), HInv st → HInv (ms.foldl (fun st d => (doMark (sys rf) d st).1) st) := by
    intro ms
    induction ms with
    | nil => intro st h; exact h
    | cons m ms ih => intro st h; exact ih _ (doMark_hinv h m)
  exact this marks _ ⟨kinv_open hg, by intro e he; cases he⟩

end Verif.Lemmas.FKer
