import Verif.Lemmas.Kernel
/-! The invariant of histories. -/
namespace Verif.Lemmas.Ker
open Verif Verif.Model Verif.Model.In Verif.Model.Ker Verif.Spec Verif.Lemmas.In

theorem pend_again_last {h : Table} {L : List Change} {q : List Rec} (hp : Pend h L q) :
    ∀ L' c c', L = L' ++ [c] → SameMod c' c → Pend h (L' ++ [c, c']) q := by
  induction hp with
  | nil => intro L' c c' e; simp at e
  | skip r hr _ ih => intro L' c c' e hs; exact .skip r hr (ih L' c c' e hs)
  | @one c0 r l q hr hp ih =>
    intro L' c c' e hs
    cases L' with
    | nil =>
      simp at e
      obtain ⟨rfl, rfl⟩ := e
      refine .again c' c0 hs (.one c' r ⟨?_, ?_, ?_⟩ hp)
      · rw [hs.kind, ← hs.name, ← hs.onDir, ← hs.kind']; exact hr.eq
      · rw [← hs.known]; exact hr.known
      · rw [← hs.name]; exact hr.name
    | cons x L' =>
      rw [List.cons_append] at e; injection e with e1 e2
      subst e1
      exact .one c0 r hr (ih L' c c' e2 hs)
  | @again c0 c1 l q hc hp ih =>
    intro L' c c' e hs
    cases L' with
    | nil => simp at e
    | cons x L' =>
      rw [List.cons_append] at e; injection e with e1 e2
      subst e1
      have := ih L' c c' e2 hs
      cases L' with
      | nil =>
        simp at e2
        obtain ⟨rfl, rfl⟩ := e2
        exact .again _ c1 hc this
      | cons y L' =>
        rw [List.cons_append] at e2; injection e2 with e3 e4
        subst e3
        exact .again _ c1 hc this

/-- The invariant: `l` says that renames stay inside their directories, `g` are the descriptors the batch in progress has declared gone, `L0` the changes told
by then, `t` the watcher's table. -/
structure Inv (l : Bool) (g : List Int) (L0 : List Change) (t : Table) (k : K) : Prop where
  next : 0 < k.next ∧ k.next ≤ 2147483647
  hist : ∀ wd p, k.hist.lookup wd = some p → 0 < wd ∧ wd < k.next
  table : ∀ wd p, t.lookup wd = some p → k.hist.lookup wd = some p
  live : ∀ e ∈ k.watches, ∃ p, t.lookup e.1 = some p
  dead : ∀ wd ∈ k.dead, ∃ e ∈ k.watches, e.1 = wd
  goneLive : ∀ e ∈ k.watches, e.1 ∉ g
  goneQ : ∀ r ∈ k.queue, r.reportable = true → r.wd ∉ g
  known : ∀ r ∈ k.queue, r.reportable = true → ∃ p, t.lookup r.wd = some p
  left : ∀ wd p, t.lookup wd = some p → (∃ e ∈ k.watches, e.1 = wd) ∨ wd ∈ g ∨
    (∃ r ∈ k.queue, (r.deleteSelf && !r.moveSelf) = true ∧ r.wd = wd) ∨ 0 < k.lost
  wf : ∀ r ∈ k.queue, r.WF
  linked : k.queue.Pairwise (Linked l)
  tidy : k.queue.Pairwise (fun a b => a.deleteSelf = true → b.reportable = true → b.wd ≠ a.wd)
  selfGone : ∀ r ∈ k.queue, r.deleteSelf = true → ∀ e ∈ k.watches, e.1 ≠ r.wd
  pend : ∃ L, k.log = L0 ++ L ∧ Pend k.hist L k.queue
  qlt : ∀ r ∈ k.queue, r.wd < k.next
  glt : ∀ wd ∈ g, wd < k.next
  lim : k.limit = none → k.lost = 0

variable {l : Bool} {g : List Int} {L0 : List Change} {t : Table} {k : K}

theorem wdOf_mem {k : K} {d : Str} {wd : Int} (h : wdOf k d = some wd) : ∃ e ∈ k.watches, e.1 = wd ∧ e.2 = d ∧ wd ∉ k.dead := by
  unfold wdOf at h
  rw [Option.map_eq_some_iff] at h
  obtain ⟨e, h1, h2⟩ := h
  have h3 := List.find?_some h1
  simp only [Bool.and_eq_true, beq_iff_eq, Bool.not_eq_true', List.contains_eq_mem, decide_eq_false_iff_not] at h3
  exact ⟨e, List.mem_of_find?_eq_some h1, h2, h3.1, h2 ▸ h3.2⟩

theorem Inv.range (hi : Inv l g L0 t k) {e} (he : e ∈ k.watches) : 0 < e.1 ∧ e.1 < 2147483648 := by
  obtain ⟨p, hp⟩ := hi.live e he
  have h1 := hi.hist _ _ (hi.table _ _ hp)
  have h2 := hi.next
  omega

theorem notify_next (k : K) (d n : Str) (kd : Kind) (od : Bool) : (notify k d n kd od).next = k.next := by
  unfold notify lose; repeat' split
  all_goals rfl

theorem pend_skips {h : Table} {L : List Change} {q : List Rec} (hp : Pend h L q) :
    ∀ nq : List Rec, (∀ r ∈ nq, r.reportable = false ∧ r.cookie = 0#32) → Pend h L (q ++ nq) := by
  intro nq hnq
  have h2 : Pend h [] nq := by
    induction nq with
    | nil => exact .nil
    | cons r nq ih => exact .skip r (hnq r (by simp)) (ih (fun x hx => hnq x (by simp [hx])))
  have := pend_append hp h2
  rwa [List.append_nil] at this

theorem linked_self {a b : Rec} (h : b.cookie = 0#32) : Linked l a b := by
  intro h1 h2; rw [h2] at h1; exact absurd h h1

theorem linked_self' {a b : Rec} (h : a.cookie = 0#32) : Linked l a b := fun h1 => absurd h h1

/-- Records that report nothing are added, watches may go. -/
theorem inv_self (hi : Inv l g L0 t k) (k' : K) (nq : List Rec) (hq : k'.queue = k.queue ++ nq)
    (hnext : k'.next = k.next) (hhist : k'.hist = k.hist) (hlog : k'.log = k.log) (hlost : k.lost ≤ k'.lost)
    (hlim : k'.limit = none → k'.lost = 0)
    (memw : ∀ e ∈ k'.watches, ∃ e' ∈ k.watches, e'.1 = e.1)
    (hdead : ∀ wd ∈ k'.dead, ∃ e ∈ k'.watches, e.1 = wd)
    (hleft : ∀ e ∈ k.watches, (∃ e' ∈ k'.watches, e'.1 = e.1) ∨
      (∃ r ∈ nq, (r.deleteSelf && !r.moveSelf) = true ∧ r.wd = e.1) ∨ 0 < k'.lost)
    (newq : ∀ r ∈ nq, r.reportable = false ∧ r.cookie = 0#32 ∧ r.WF ∧ r.wd < k.next ∧
      (r.deleteSelf = true → ∀ e ∈ k'.watches, e.1 ≠ r.wd)) : Inv l g L0 t k' := by
  obtain ⟨L, hL, hP⟩ := hi.pend
  refine ⟨by rw [hnext]; exact hi.next, by rw [hhist, hnext]; exact hi.hist, by rw [hhist]; exact hi.table,
    ?_, hdead, ?_, ?_, ?_, ?_, ?_, ?_, ?_, ?_, ?_, ?_, by rw [hnext]; exact hi.glt, hlim⟩
  · intro e he; obtain ⟨e', h1, h2⟩ := memw e he; rw [← h2]; exact hi.live e' h1
  · intro e he; obtain ⟨e', h1, h2⟩ := memw e he; rw [← h2]; exact hi.goneLive e' h1
  · intro r hr hrep
    rw [hq] at hr
    rcases List.mem_append.1 hr with hr | hr
    · exact hi.goneQ r hr hrep
    · rw [(newq r hr).1] at hrep; cases hrep
  · intro r hr hrep
    rw [hq] at hr
    rcases List.mem_append.1 hr with hr | hr
    · exact hi.known r hr hrep
    · rw [(newq r hr).1] at hrep; cases hrep
  · intro wd' p hl
    rw [hq]
    rcases hi.left wd' p hl with ⟨e, he, h1⟩ | h | ⟨r, hr, h⟩ | h
    · rcases hleft e he with ⟨e', h2, h3⟩ | ⟨r, h2, h3, h4⟩ | h2
      · exact .inl ⟨e', h2, h3.trans h1⟩
      · exact .inr (.inr (.inl ⟨r, List.mem_append_right _ h2, h3, h4.trans h1⟩))
      · exact .inr (.inr (.inr h2))
    · exact .inr (.inl h)
    · exact .inr (.inr (.inl ⟨r, List.mem_append_left _ hr, h⟩))
    · exact .inr (.inr (.inr (by omega)))
  · intro r hr
    rw [hq] at hr
    rcases List.mem_append.1 hr with hr | hr
    · exact hi.wf r hr
    · exact (newq r hr).2.2.1
  · rw [hq]
    refine List.pairwise_append.2 ⟨hi.linked, ?_, ?_⟩
    · exact List.Pairwise.imp_of_mem (R := fun _ _ => True) (fun ha _ _ => linked_self' (newq _ ha).2.1)
        (List.pairwise_of_forall (fun _ _ => trivial))
    · intro a _ b hb; exact linked_self (newq b hb).2.1
  · rw [hq]
    refine List.pairwise_append.2 ⟨hi.tidy, ?_, ?_⟩
    · refine List.Pairwise.imp_of_mem (R := fun _ _ => True) ?_ (List.pairwise_of_forall (fun _ _ => trivial))
      intro a b _ hb _ _ hrep
      rw [(newq b hb).1] at hrep; cases hrep
    · intro a _ b hb _ hrep
      rw [(newq b hb).1] at hrep; cases hrep
  · intro r hr hds e he
    rw [hq] at hr
    rcases List.mem_append.1 hr with hr | hr
    · obtain ⟨e', h1, h2⟩ := memw e he
      rw [← h2]; exact hi.selfGone r hr hds e' h1
    · exact (newq r hr).2.2.2.2 hds e he
  · rw [hlog, hhist, hq]
    exact ⟨L, hL, pend_skips hP nq (fun r hr => ⟨(newq r hr).1, (newq r hr).2.1⟩)⟩
  · intro r hr
    rw [hq] at hr
    rw [hnext]
    rcases List.mem_append.1 hr with hr | hr
    · exact hi.qlt r hr
    · exact (newq r hr).2.2.2.1

theorem overflow_self : overflowRec.reportable = false ∧ overflowRec.cookie = 0#32 ∧ overflowRec.WF ∧
    overflowRec.wd = -1 ∧ overflowRec.deleteSelf = false := by
  refine ⟨by decide, rfl, ?_, rfl, by decide⟩
  refine ⟨by decide, by decide, by decide, by decide, by decide, by decide, by decide, by decide⟩

/-- What losing a record does to the queue. -/
theorem lose_queue (k : K) : ∃ nq, (lose k).queue = k.queue ++ nq ∧ ∀ r ∈ nq, r = overflowRec := by
  unfold lose
  by_cases h : k.queue.contains overflowRec = true
  · exact ⟨[], by simp only [if_pos h, List.append_nil], by simp⟩
  · exact ⟨[overflowRec], by simp only [if_neg h], by simp⟩

theorem full_lim {k : K} (h : full k = true) : k.limit ≠ none := by
  intro hx; simp [full, hx] at h

theorem inv_lose (hi : Inv l g L0 t k) (hf : full k = true) : Inv l g L0 t (lose k) := by
  obtain ⟨nq, hq, hn⟩ := lose_queue k
  refine inv_self hi _ nq hq rfl rfl rfl (by simp [lose]) (fun h => absurd (show k.limit = none from h) (full_lim hf)) (fun e he => ⟨e, he, rfl⟩)
    hi.dead (fun e he => .inl ⟨e, he, rfl⟩) ?_
  intro r hr
  rw [hn r hr]
  obtain ⟨h1, h2, h3, h4, h5⟩ := overflow_self
  have := hi.next
  exact ⟨h1, h2, h3, by rw [h4]; omega, fun h => by rw [h5] at h; cases h⟩

theorem inv_notify (hi : Inv l g L0 t k) (d n : Str) (kd : Kind) (od : Bool) (hn : okName n = true)
    (hc : ∀ wd, wdOf k d = some wd → ∀ r ∈ k.queue, Linked l r (recOf wd kd n od)) :
    Inv l g L0 t (notify k d n kd od) := by
  unfold notify
  cases hw : wdOf k d with
  | none => exact hi
  | some wd =>
    simp only
    by_cases hfull : full k = true
    · rw [if_pos hfull]; exact inv_lose hi hfull
    rw [if_neg hfull]
    obtain ⟨e, he, hewd, -, -⟩ := wdOf_mem hw
    have hrange := hi.range he
    rw [hewd] at hrange
    obtain ⟨p, hp⟩ := hi.live e he
    rw [hewd] at hp
    have hk := hi.table _ _ hp
    have hrep := recOf_reportable wd kd n od
    obtain ⟨L, hL, hP⟩ := hi.pend
    simp only [hk, Option.getD_some]
    by_cases hm : kd = .modify ∧ k.queue.getLast? = some (recOf wd kd n od)
    · -- merged with the last record
      have hq : enqueue k.queue (recOf wd kd n od) kd = k.queue := by simp [enqueue, hm]
      rw [hq]
      refine { hi with pend := ?_ }
      obtain ⟨q0, hq0⟩ : ∃ q0, k.queue = q0 ++ [recOf wd kd n od] := by
        have := List.getLast?_eq_some_iff.1 hm.2
        obtain ⟨ys, h⟩ := this
        exact ⟨ys, h⟩
      obtain ⟨L', c, h1, h2⟩ := pend_last hP q0 _ hq0 hrep
      refine ⟨L' ++ [c, { dir := d, known := p, name := n, kind := kd, onDir := od }], ?_,
        pend_again_last hP L' c _ h1 ?_⟩
      · simp only [hL, h1, List.append_assoc, List.cons_append, List.nil_append]
      · have e1 : (recOf wd kd n od) = recOf wd c.kind c.name c.onDir := h2.eq
        have hb := bits_of wd c.kind c.name c.onDir
        have hb' := bits_of wd kd n od
        rw [e1] at hb'
        have hkind : c.kind = .modify := by
          have h3 := hb.1
          rw [hb'.1, hm.1] at h3
          simpa using h3
        have hname : c.name = n := (congrArg Rec.name e1).symm
        have hod : c.onDir = od := by rw [← hb.2.2.2.2.2.2.2.2.2, hb'.2.2.2.2.2.2.2.2.2]
        have hkn : c.known = p := by
          have := h2.known
          have e2 : (recOf wd kd n od).wd = wd := rfl
          rw [e2, hk] at this
          injection this with this; exact this.symm
        exact ⟨hm.1, hkind, hname, hod, hkn⟩
    · -- a new record
      have hq : enqueue k.queue (recOf wd kd n od) kd = k.queue ++ [recOf wd kd n od] := by
        rw [enqueue, if_neg hm]
      rw [hq]
      have hb := bits_of wd kd n od
      refine { hi with
        goneQ := ?_, known := ?_, left := ?_, wf := ?_, linked := ?_, tidy := ?_, selfGone := ?_, pend := ?_, qlt := ?_ }
      · intro r hr hrr
        rcases List.mem_append.1 hr with hr | hr
        · exact hi.goneQ r hr hrr
        · simp at hr; subst hr; rw [← hewd] at *; exact hi.goneLive e he
      · intro r hr hrr
        rcases List.mem_append.1 hr with hr | hr
        · exact hi.known r hr hrr
        · simp at hr; subst hr; exact ⟨p, hp⟩
      · intro wd' p' hl
        rcases hi.left wd' p' hl with h | h | ⟨r, hr, h⟩ | h
        · exact .inl h
        · exact .inr (.inl h)
        · exact .inr (.inr (.inl ⟨r, List.mem_append_left _ hr, h⟩))
        · exact .inr (.inr (.inr h))
      · intro r hr
        rcases List.mem_append.1 hr with hr | hr
        · exact hi.wf r hr
        · simp at hr; subst hr; exact recOf_wf wd kd n od hrange hn
      · refine List.pairwise_append.2 ⟨hi.linked, List.pairwise_singleton _ _, ?_⟩
        intro a ha b hb'
        simp at hb'; subst hb'
        exact hc wd hw a ha
      · refine List.pairwise_append.2 ⟨hi.tidy, List.pairwise_singleton _ _, ?_⟩
        intro a ha b hb' h1 _
        simp at hb'; subst hb'
        show wd ≠ a.wd
        rw [← hewd]
        exact hi.selfGone a ha h1 e he
      · intro r hr hd e' he'
        rcases List.mem_append.1 hr with hr | hr
        · exact hi.selfGone r hr hd e' he'
        · simp at hr; subst hr; rw [hb.2.2.2.2.2.1] at hd; cases hd
      · refine ⟨L ++ [{ dir := d, known := p, name := n, kind := kd, onDir := od }], by simp [hL], ?_⟩
        exact pend_append hP (.one _ _ ⟨rfl, hk, hn⟩ .nil)
      · intro r hr
        rcases List.mem_append.1 hr with hr | hr
        · exact hi.qlt r hr
        · simp at hr; subst hr; exact (hi.hist _ _ hk).2

theorem inv_dirs (hi : Inv l g L0 t k) (ds : List Str) : Inv l g L0 t { k with dirs := ds } := { hi with }

theorem inv_bury (hi : Inv l g L0 t k) (p : Str) : Inv l g L0 t (bury k p) := by
  unfold bury
  refine inv_dirs ?_ _
  cases hw : wdOf k p with
  | none => exact hi
  | some wd =>
    refine { hi with dead := ?_ }
    intro x hx
    rcases List.mem_cons.1 hx with rfl | hx
    · obtain ⟨e, he, h1, _⟩ := wdOf_mem hw; exact ⟨e, he, h1⟩
    · exact hi.dead x hx

/-- Records about a watch itself. -/
structure SelfRec (r : Rec) : Prop where
  rep : r.reportable = false
  cookie : r.cookie = 0#32

theorem ignored_self (wd : Int) : (ignoredRec wd).reportable = false ∧ (ignoredRec wd).cookie = 0#32 := by
  refine ⟨?_, rfl⟩
  simp [Rec.reportable, ignoredRec, Rec.created, Rec.deleted, Rec.modified, Rec.movedFrom, Rec.movedTo, Rec.bit]
theorem delself_self (wd : Int) : (deleteSelfRec wd).reportable = false ∧ (deleteSelfRec wd).cookie = 0#32 := by
  refine ⟨?_, rfl⟩
  simp [Rec.reportable, deleteSelfRec, Rec.created, Rec.deleted, Rec.modified, Rec.movedFrom, Rec.movedTo, Rec.bit]
theorem movself_self (wd : Int) : (moveSelfRec wd).reportable = false ∧ (moveSelfRec wd).cookie = 0#32 := by
  refine ⟨?_, rfl⟩
  simp [Rec.reportable, moveSelfRec, Rec.created, Rec.deleted, Rec.modified, Rec.movedFrom, Rec.movedTo, Rec.bit]

theorem wf_bare (wd : Int) (m : BitVec 32) (hw : 0 < wd ∧ wd < 2147483648)
    (h : m = 0x8000#32 ∨ m = 0x400#32 ∨ m = 0x800#32) : ({ wd := wd, mask := m } : Rec).WF := by
  rcases h with rfl | rfl | rfl <;> refine ⟨?_, ?_, ?_, ?_, ?_, ?_, ?_, ?_⟩ <;>
    first
    | (show _ ∧ _; simp only; omega)
    | (simp; done)
    | (intro h; revert h; simp [Rec.reportable, Rec.created, Rec.deleted, Rec.modified, Rec.movedFrom, Rec.movedTo,
        Rec.overflow, Rec.bit, Rec.ignored, Rec.moveSelf, Rec.deleteSelf]; done)

/-- Queueing a record about a watch itself. -/
theorem push_queue (k : K) (x : Rec) : ∃ nq, (push k x).queue = k.queue ++ nq ∧ (∀ r ∈ nq, r = overflowRec ∨ r = x) ∧
    (x ∈ nq ∨ 0 < (push k x).lost) := by
  unfold push
  split
  · obtain ⟨nq, h1, h2⟩ := lose_queue k
    exact ⟨nq, h1, fun r hr => .inl (h2 r hr), .inr (by simp [lose])⟩
  · exact ⟨[x], rfl, by simp, .inl (by simp)⟩

theorem push_rest (k : K) (x : Rec) : (push k x).next = k.next ∧ (push k x).hist = k.hist ∧ (push k x).log = k.log ∧
    k.lost ≤ (push k x).lost ∧ (push k x).limit = k.limit ∧ (push k x).watches = k.watches ∧ (push k x).dead = k.dead ∧
    (push k x).dirs = k.dirs ∧ (k.limit = none → (push k x).lost = k.lost) := by
  unfold push
  split
  · rename_i h
    exact ⟨rfl, rfl, rfl, by simp [lose], rfl, rfl, rfl, rfl, fun hx => absurd hx (full_lim h)⟩
  · exact ⟨rfl, rfl, rfl, Nat.le_refl _, rfl, rfl, rfl, rfl, fun _ => rfl⟩

theorem inv_evict (hi : Inv l g L0 t k) (wd : Int) : Inv l g L0 t (evictWd k wd) := by
  unfold evictWd
  by_cases hd : k.dead.contains wd = true
  · rw [if_pos hd]
    obtain ⟨e0, he0, hwd0⟩ := hi.dead wd (by simpa using hd)
    have hr0 := hi.range he0
    rw [hwd0] at hr0
    have memw : ∀ e, e ∈ k.watches.filter (fun e => e.1 != wd) → e ∈ k.watches ∧ e.1 ≠ wd := by
      intro e he
      have := List.mem_filter.1 he
      exact ⟨this.1, by simpa using this.2⟩
    have d1 : (deleteSelfRec wd).deleteSelf = true := by simp [deleteSelfRec, Rec.deleteSelf, Rec.bit]
    have d2 : (deleteSelfRec wd).moveSelf = false := by simp [deleteSelfRec, Rec.moveSelf, Rec.bit]
    have hlt : wd < k.next := by
      obtain ⟨p, hp⟩ := hi.live e0 he0
      rw [← hwd0]; exact (hi.hist _ _ (hi.table _ _ hp)).2
    generalize hk0 : ({ k with watches := k.watches.filter (fun e => e.1 != wd), dead := k.dead.filter (· != wd) } : K) = k0
    have e1 : k0.queue = k.queue ∧ k0.next = k.next ∧ k0.hist = k.hist ∧ k0.log = k.log ∧ k0.lost = k.lost ∧
        k0.limit = k.limit ∧ k0.watches = k.watches.filter (fun e => e.1 != wd) ∧ k0.dead = k.dead.filter (· != wd) := by
      rw [← hk0]; exact ⟨rfl, rfl, rfl, rfl, rfl, rfl, rfl, rfl⟩
    obtain ⟨n1, q1, m1, x1⟩ := push_queue k0 (deleteSelfRec wd)
    obtain ⟨a1, a2, a3, a4, a5, a6, a7, a8, a9⟩ := push_rest k0 (deleteSelfRec wd)
    obtain ⟨n2, q2, m2, x2⟩ := push_queue (push k0 (deleteSelfRec wd)) (ignoredRec wd)
    obtain ⟨b1, b2, b3, b4, b5, b6, b7, b8, b9⟩ := push_rest (push k0 (deleteSelfRec wd)) (ignoredRec wd)
    obtain ⟨c1, c2, c3, c4, c5, c6, c7, c8⟩ := e1
    have hw : (push (push k0 (deleteSelfRec wd)) (ignoredRec wd)).watches = k.watches.filter (fun e => e.1 != wd) := by
      rw [b6, a6, c7]
    refine inv_self hi _ (n1 ++ n2) (by rw [q2, q1, c1, List.append_assoc]) (by rw [b1, a1, c2]) (by rw [b2, a2, c3])
      (by rw [b3, a3, c4]) (by omega) ?_ ?_ ?_ ?_ ?_
    · intro h
      rw [b5, a5] at h
      rw [b9 (by rw [a5]; exact h), a9 h, c5]; exact hi.lim (by rw [← c6]; exact h)
    · intro e he; rw [hw] at he; exact ⟨e, (memw e he).1, rfl⟩
    · intro x hx
      rw [b7, a7, c8] at hx
      rw [hw]
      have hx := List.mem_filter.1 hx
      obtain ⟨e, he, h1⟩ := hi.dead x hx.1
      refine ⟨e, List.mem_filter.2 ⟨he, ?_⟩, h1⟩
      rw [h1]; simpa using hx.2
    · intro e he
      by_cases hx : e.1 = wd
      · rcases x1 with h | h
        · exact .inr (.inl ⟨_, List.mem_append_left _ h, by simp [d1, d2], hx.symm⟩)
        · exact .inr (.inr (by omega))
      · exact .inl ⟨e, by rw [hw]; exact List.mem_filter.2 ⟨he, by simpa using hx⟩, rfl⟩
    · intro r hr
      have hov := overflow_self
      have hpos := hi.next
      have : r = overflowRec ∨ r = deleteSelfRec wd ∨ r = ignoredRec wd := by
        rcases List.mem_append.1 hr with hr | hr
        · rcases m1 r hr with h | h <;> simp [h]
        · rcases m2 r hr with h | h <;> simp [h]
      rcases this with rfl | rfl | rfl
      · exact ⟨hov.1, hov.2.1, hov.2.2.1, by rw [hov.2.2.2.1]; omega, fun h => by rw [hov.2.2.2.2] at h; cases h⟩
      · refine ⟨(delself_self wd).1, rfl, wf_bare wd _ hr0 (.inr (.inl rfl)), hlt, ?_⟩
        intro _ e he; rw [hw] at he; exact (memw e he).2
      · refine ⟨(ignored_self wd).1, rfl, wf_bare wd _ hr0 (.inl rfl), hlt, ?_⟩
        intro h; simp [ignoredRec, Rec.deleteSelf, Rec.bit] at h
  · rw [if_neg hd]; exact hi

theorem fresh_linked {k : K} {ck : BitVec 32} (hf : fresh k ck = true) : ∀ r ∈ k.queue, r.cookie ≠ ck := by
  simp only [fresh, Bool.and_eq_true, List.all_eq_true, bne_iff_ne, ne_eq] at hf
  exact hf.2

theorem wdOf_notify (k : K) (d n : Str) (kd : Kind) (od : Bool) (x : Str) : wdOf (notify k d n kd od) x = wdOf k x := by
  unfold notify lose
  repeat' split
  all_goals rfl

/-- What a change of another kind than a modification adds to the queue. -/
theorem notify_queue (k : K) (d n : Str) (kd : Kind) (od : Bool) (hkd : kd ≠ .modify) :
    ∀ r ∈ (notify k d n kd od).queue, r ∈ k.queue ∨ r = overflowRec ∨ ∃ wd, wdOf k d = some wd ∧ r = recOf wd kd n od := by
  intro r hr
  unfold notify at hr
  cases hw : wdOf k d with
  | none => rw [hw] at hr; exact .inl hr
  | some wd =>
    rw [hw] at hr
    simp only at hr
    by_cases hf : full k = true
    · rw [if_pos hf] at hr
      obtain ⟨nq, h1, h2⟩ := lose_queue k
      rw [h1] at hr
      rcases List.mem_append.1 hr with hr | hr
      · exact .inl hr
      · exact .inr (.inl (h2 r hr))
    · rw [if_neg hf] at hr
      simp only [enqueue] at hr
      rw [if_neg (fun h => hkd h.1)] at hr
      rcases List.mem_append.1 hr with hr | hr
      · exact .inl hr
      · rw [List.mem_singleton] at hr; exact .inr (.inr ⟨wd, rfl, hr⟩)

/-- Two halves of a rename. -/
theorem inv_rename (hi : Inv l g L0 t k) (d1 d2 n1 n2 : Str) (ck : BitVec 32) (od : Bool) (h1 : okName n1 = true)
    (h2 : okName n2 = true) (hf : fresh k ck = true) (hl : l = true → d1 = d2) :
    Inv l g L0 t (notify (notify k d1 n1 (.moveFrom ck) od) d2 n2 (.moveTo ck) od) := by
  have hi1 : Inv l g L0 t (notify k d1 n1 (.moveFrom ck) od) :=
    inv_notify hi d1 n1 _ od h1 (fun wd _ r hr _ hc => absurd hc (fresh_linked hf r hr))
  refine inv_notify hi1 d2 n2 _ od h2 ?_
  intro wd hw r hr
  rw [wdOf_notify] at hw
  rcases notify_queue k d1 n1 (.moveFrom ck) od (by simp) r hr with hr | rfl | ⟨wd1, hw1, rfl⟩
  · intro _ hc; exact absurd hc (fresh_linked hf r hr)
  · exact linked_self' overflow_self.2.1
  · intro _ _
    have hb := bits_of wd1 (.moveFrom ck) n1 od
    have hb' := bits_of wd (.moveTo ck) n2 od
    refine ⟨hb.2.2.2.2.1, hb'.2.2.2.1, ?_, by rw [hb.2.2.2.2.2.2.2.2.2, hb'.2.2.2.2.2.2.2.2.2]⟩
    intro hlt
    rw [hl hlt] at hw1
    rw [hw1] at hw
    injection hw

theorem cookie0 {a : Rec} {wd kd n od} (h : kd.cookie = 0#32) : Linked l a (recOf wd kd n od) := linked_self h

theorem fresh_bury {k : K} {ck : BitVec 32} {p : Str} (h : fresh k ck = true) : fresh (bury k p) ck = true := by
  have : (bury k p).queue = k.queue := by unfold bury; split <;> rfl
  simpa only [fresh, this] using h

theorem wd_range (hi : Inv l g L0 t k) {p : Str} {wd : Int} (hw : wdOf k p = some wd) : (0 < wd ∧ wd < 2147483648) ∧ wd < k.next := by
  obtain ⟨e, he, h1, _⟩ := wdOf_mem hw
  obtain ⟨p, hp⟩ := hi.live e he
  rw [← h1]; exact ⟨hi.range he, (hi.hist _ _ (hi.table _ _ hp)).2⟩

/-- Directories change places. -/
theorem inv_relocate {k1 : K} (hi1 : Inv l g L0 t k1) (f : Str → Str) : Inv l g L0 t (relocate k1 f) := by
  generalize hk2 : relocate k1 f = k2
  have hw2 : k2.watches = k1.watches.map (fun e => (e.1, if k1.dead.contains e.1 then e.2 else f e.2)) := by rw [← hk2]; rfl
  have memw : ∀ e ∈ k2.watches, ∃ e' ∈ k1.watches, e'.1 = e.1 := by
    intro e he
    rw [hw2] at he
    obtain ⟨e', h1, rfl⟩ := List.mem_map.1 he
    exact ⟨e', h1, rfl⟩
  have memw' : ∀ e ∈ k1.watches, ∃ e' ∈ k2.watches, e'.1 = e.1 :=
    fun e he => ⟨(e.1, if k1.dead.contains e.1 then e.2 else f e.2), by rw [hw2]; exact List.mem_map.2 ⟨e, he, rfl⟩, rfl⟩
  refine inv_self hi1 k2 [] (by rw [← hk2]; simp [relocate]) (by rw [← hk2]; rfl) (by rw [← hk2]; rfl) (by rw [← hk2]; rfl)
    (by rw [← hk2]; simp [relocate]) ?_ memw ?_ (fun e he => .inl (memw' e he)) (by simp)
  · intro hl; rw [← hk2] at hl ⊢; exact hi1.lim hl
  · intro x hx
    have hx : x ∈ k1.dead := by rw [← hk2] at hx; exact hx
    obtain ⟨e, h1, h2⟩ := hi1.dead x hx
    obtain ⟨e', h3, h4⟩ := memw' e h1
    exact ⟨e', h3, h4.trans h2⟩

theorem pushMoved_next (k0 k : K) (p : Str) : (pushMoved k0 k p).next = k.next := by
  unfold pushMoved push lose
  repeat' split
  all_goals rfl

/-- A record about the move of a directory itself. -/
theorem inv_pushMoved {k0 k2 : K} (hi2 : Inv l g L0 t k2) (p : Str)
    (hwd : ∀ wd, wdOf k0 p = some wd → (0 < wd ∧ wd < 2147483648) ∧ wd < k2.next) : Inv l g L0 t (pushMoved k0 k2 p) := by
  unfold pushMoved
  split
  · exact hi2
  · rename_i wd hw
    obtain ⟨hr1, hr2⟩ := hwd wd hw
    obtain ⟨nq, q1, m1, _⟩ := push_queue k2 (moveSelfRec wd)
    obtain ⟨a1, a2, a3, a4, a5, a6, a7, a8, a9⟩ := push_rest k2 (moveSelfRec wd)
    refine inv_self hi2 _ nq q1 a1 a2 a3 a4 ?_ ?_ ?_ ?_ ?_
    · intro hl; rw [a5] at hl; rw [a9 hl]; exact hi2.lim hl
    · intro e he; rw [a6] at he; exact ⟨e, he, rfl⟩
    · rw [a6, a7]; exact hi2.dead
    · rw [a6]; intro e he; exact .inl ⟨e, he, rfl⟩
    · intro r hr
      have hov := overflow_self
      have hpos := hi2.next
      rcases m1 r hr with rfl | rfl
      · exact ⟨hov.1, hov.2.1, hov.2.2.1, by rw [hov.2.2.2.1]; omega, fun h => by rw [hov.2.2.2.2] at h; cases h⟩
      · refine ⟨(movself_self wd).1, rfl, wf_bare wd _ hr1 (.inr (.inr rfl)), hr2, ?_⟩
        intro h; simp [moveSelfRec, Rec.deleteSelf, Rec.bit] at h

theorem inv_moveDirK (hi : Inv l g L0 t k) (d1 n1 d2 n2 : Str) (ck : BitVec 32) (h1 : okName n1 = true)
    (h2 : okName n2 = true) (hf : fresh k ck = true) (hl : l = true → d1 = d2) : Inv l g L0 t (moveDirK k d1 n1 d2 n2 ck) := by
  refine inv_pushMoved (inv_relocate (inv_rename hi d1 d2 n1 n2 ck true h1 h2 hf hl) _) _ ?_
  intro wd hw
  show _ ∧ wd < (notify (notify k d1 n1 (.moveFrom ck) true) d2 n2 (.moveTo ck) true).next
  rw [notify_next, notify_next]
  exact wd_range hi hw

theorem inv_apply (hi : Inv l g L0 t k) (o : Op) (ho : l = true → Ker.local o = true) : Inv l g L0 t (apply k o) := by
  cases o with
  | create d n =>
    simp only [apply]; split
    · rename_i h; exact inv_notify hi _ _ _ _ h (fun _ _ _ _ => cookie0 rfl)
    · exact hi
  | modify d n =>
    simp only [apply]; split
    · rename_i h; exact inv_notify hi _ _ _ _ h (fun _ _ _ _ => cookie0 rfl)
    · exact hi
  | unlink d n =>
    simp only [apply]; split
    · rename_i h; exact inv_notify hi _ _ _ _ h (fun _ _ _ _ => cookie0 rfl)
    · exact hi
  | rename d n1 n2 ck =>
    simp only [apply]; split
    · rename_i h; simp only [Bool.and_eq_true] at h; exact inv_rename hi d d n1 n2 ck false h.1.1 h.1.2 h.2 (fun _ => rfl)
    · exact hi
  | moveOut d n ck =>
    simp only [apply]; split
    · rename_i h; simp only [Bool.and_eq_true] at h
      exact inv_notify hi _ _ _ _ h.1 (fun _ _ r hr _ hc => absurd hc (fresh_linked h.2 r hr))
    · exact hi
  | moveIn d n ck =>
    simp only [apply]; split
    · rename_i h; simp only [Bool.and_eq_true] at h
      exact inv_notify hi _ _ _ _ h.1 (fun _ _ r hr _ hc => absurd hc (fresh_linked h.2 r hr))
    · exact hi
  | cross d1 n1 d2 n2 ck =>
    simp only [apply]; split
    · rename_i h; simp only [Bool.and_eq_true] at h
      exact inv_rename hi d1 d2 n1 n2 ck false h.1.1 h.1.2 h.2 (fun hl => by have := ho hl; simp [Ker.local] at this)
    · exact hi
  | mkdir d n =>
    simp only [apply]; split
    · rename_i h; simp only [Bool.and_eq_true] at h
      exact inv_notify (inv_dirs hi _) _ _ _ _ h.1.1 (fun _ _ _ _ => cookie0 rfl)
    · exact hi
  | moveInDir d n ck =>
    simp only [apply]; split
    · rename_i h; simp only [Bool.and_eq_true] at h
      exact inv_notify (inv_dirs hi _) _ _ _ _ h.1.1.1 (fun _ _ r hr _ hc => absurd hc (fresh_linked h.1.1.2 r hr))
    · exact hi
  | rmdir d n sf =>
    simp only [apply]
    split
    · rename_i h; simp only [Bool.and_eq_true] at h
      split
      · refine inv_notify ?_ _ _ _ _ h.1.1 (fun _ _ _ _ => cookie0 rfl)
        split
        · exact inv_bury hi _
        · exact inv_evict (inv_bury hi _) _
      · exact inv_notify (inv_bury hi _) _ _ _ _ h.1.1 (fun _ _ _ _ => cookie0 rfl)
    · exact hi
  | evict wd => exact inv_evict hi wd
  | moveDir d1 n1 d2 n2 ck =>
    simp only [apply]
    split
    · rename_i h; simp only [Bool.and_eq_true] at h
      exact inv_moveDirK hi d1 n1 d2 n2 ck h.1.1.1.1.1 h.1.1.1.1.2 h.1.1.1.2 (fun hl => by have := ho hl; simpa [Ker.local] using this)
    · exact hi
  | moveOver d1 n1 d2 n2 ck =>
    simp only [apply]
    split
    · rename_i h; simp only [Bool.and_eq_true] at h
      exact inv_moveDirK (inv_bury hi _) d1 n1 d2 n2 ck h.1.1.1.1.1.1 h.1.1.1.1.1.2 (fresh_bury h.1.1.1.1.2)
        (fun hl => by have := ho hl; simpa [Ker.local] using this)
    · exact hi
  | moveInOver d n ck =>
    simp only [apply]; split
    · rename_i h; simp only [Bool.and_eq_true] at h
      exact inv_notify (inv_dirs (inv_bury hi _) _) _ _ _ _ h.1.1.1 (fun _ _ r hr _ hc => absurd hc (fresh_linked (fresh_bury h.1.1.2) r hr))
    · exact hi
  | swapDirs d1 n1 d2 n2 ck1 ck2 =>
    simp only [apply]; split
    · rename_i h; simp only [Bool.and_eq_true, bne_iff_ne, ne_eq] at h
      obtain ⟨⟨⟨⟨⟨⟨⟨⟨⟨h1, h2⟩, h3⟩, h4⟩, h5⟩, _⟩, _⟩, _⟩, _⟩, _⟩ := h
      have hl : l = true → d1 = d2 := fun hl => by have := ho hl; simpa [Ker.local] using this
      have hwd := fun p wd (hw : wdOf k p = some wd) => wd_range hi hw
      have i1 := inv_rename hi d1 d2 n1 n2 ck1 true h1 h2 h3 hl
      have i2 := inv_pushMoved (k0 := k) i1 (entryPath d1 n1) (by rw [notify_next, notify_next]; exact hwd _)
      refine inv_relocate ?_ _
      refine inv_pushMoved ?_ _ ?_
      · refine inv_rename i2 d2 d1 n2 n1 ck2 true h2 h1 ?_ (fun x => (hl x).symm)
        simp only [fresh, Bool.and_eq_true, List.all_eq_true, bne_iff_ne, ne_eq] at h4 ⊢
        refine ⟨h4.1, ?_⟩
        intro r hr
        have h40 : overflowRec.cookie ≠ ck2 := by rw [overflow_self.2.1]; exact fun e => h4.1 e.symm
        have : r ∈ (notify (notify k d1 n1 (.moveFrom ck1) true) d2 n2 (.moveTo ck1) true).queue ∨ r = overflowRec ∨ ∃ wd, r = moveSelfRec wd := by
          unfold pushMoved at hr
          split at hr
          · exact .inl hr
          · rename_i wd _
            obtain ⟨nq, q1, m1, _⟩ := push_queue (notify (notify k d1 n1 (.moveFrom ck1) true) d2 n2 (.moveTo ck1) true) (moveSelfRec wd)
            rw [q1] at hr
            rcases List.mem_append.1 hr with hr | hr
            · exact .inl hr
            · rcases m1 r hr with h | h
              · exact .inr (.inl h)
              · exact .inr (.inr ⟨wd, h⟩)
        rcases this with hr | rfl | ⟨wd, rfl⟩
        · rcases notify_queue _ d2 n2 (.moveTo ck1) true (by simp) r hr with hr | rfl | ⟨wd, _, rfl⟩
          · rcases notify_queue _ d1 n1 (.moveFrom ck1) true (by simp) r hr with hr | rfl | ⟨wd, _, rfl⟩
            · exact h4.2 r hr
            · exact h40
            · exact h5
          · exact h40
          · exact h5
        · exact h40
        · exact fun e => h4.1 e.symm
      · rw [notify_next, notify_next, pushMoved_next, notify_next, notify_next]; exact hwd _
    · exact hi

end Verif.Lemmas.Ker
