import Verif.Spec.Starve
import Verif.Lemmas.Kernel6
import Verif.Props.Kernel
/-!
# No change waits for ever: C162
-/

namespace Verif.Props
open Verif Verif.Model Verif.Model.In Verif.Model.Ker Verif.Spec Verif.Spec.Starve Verif.Lemmas.Ker Verif.Lemmas.In

/-- The changes `S` are told (`L0`) or shown by the first `o` pending records. -/
private structure Front (S : List Change) (o : Nat) (L0 : List Change) (k : K) : Prop where
  hist : ∀ e ∈ k.watches, ∃ p, k.hist.lookup e.1 = some p
  short : ∀ r ∈ k.queue, r.name.length + r.pad ≤ 272
  young : ∀ wd p, k.hist.lookup wd = some p → wd < k.next
  split : ∃ old new La Lb, k.queue = old ++ new ∧ old.length ≤ o ∧ k.log = L0 ++ (La ++ Lb) ∧ Pend k.hist La old ∧ Pend k.hist Lb new ∧ S <+: L0 ++ La

variable {S L0 : List Change} {o : Nat} {k k' : K}

private theorem front_same (h : Front S o L0 k) (h1 : k'.queue = k.queue) (h2 : k'.log = k.log) (h3 : k'.hist = k.hist) (h5 : k'.next = k.next)
    (h4 : ∀ e ∈ k'.watches, ∃ e' ∈ k.watches, e'.1 = e.1) : Front S o L0 k' := by
  refine ⟨?_, by rw [h1]; exact h.short, by rw [h3, h5]; exact h.young, by rw [h1, h2, h3]; exact h.split⟩
  intro e he
  obtain ⟨e', g1, g2⟩ := h4 e he
  rw [h3, ← g2]; exact h.hist e' g1

private theorem front_more (h : Front S o L0 k) (nq : List Rec) (h1 : k'.queue = k.queue ++ nq) (hn : ∀ r ∈ nq, (r.reportable = false ∧ r.cookie = 0#32) ∧ r.name.length + r.pad ≤ 272)
    (h2 : k'.log = k.log) (h3 : k'.hist = k.hist) (h5 : k'.next = k.next) (h4 : k'.watches = k.watches) : Front S o L0 k' := by
  obtain ⟨old, new, La, Lb, a1, a2, a3, a4, a5, a6⟩ := h.split
  refine ⟨by rw [h3, h4]; exact h.hist, ?_, by rw [h3, h5]; exact h.young, old, new ++ nq, La, Lb, ?_, a2, by rw [h2]; exact a3, by rw [h3]; exact a4, ?_, a6⟩
  · intro r hr
    rw [h1] at hr
    rcases List.mem_append.1 hr with hr | hr
    · exact h.short r hr
    · exact (hn r hr).2
  · rw [h1, a1, List.append_assoc]
  · rw [h3]; exact pend_skips a5 nq (fun r hr => (hn r hr).1)

private theorem front_lose (h : Front S o L0 k) : Front S o L0 (lose k) := by
  obtain ⟨nq, hq, hn⟩ := lose_queue k
  exact front_more h nq hq (fun r hr => by rw [hn r hr]; exact ⟨⟨overflow_self.1, overflow_self.2.1⟩, by decide⟩) rfl rfl rfl rfl

private theorem front_push (h : Front S o L0 k) (r : Rec) (hr : r.reportable = false ∧ r.cookie = 0#32) (hs : r.name.length + r.pad ≤ 272) : Front S o L0 (push k r) := by
  unfold push
  split
  · exact front_lose h
  · exact front_more h [r] rfl (by intro x hx; rw [List.mem_singleton.1 hx]; exact ⟨hr, hs⟩) rfl rfl rfl rfl

/-- Merging a modification with the last pending record. -/
private theorem pend_merge {hh : Table} {L : List Change} {q : List Rec} (hP : Pend hh L q) {wd : Int} {n d p : Str} {od : Bool} (hk : hh.lookup wd = some p)
    (hq : q.getLast? = some (recOf wd .modify n od)) :
    Pend hh (L ++ [{ dir := d, known := p, name := n, kind := .modify, onDir := od }]) q := by
  obtain ⟨q0, hq0⟩ := List.getLast?_eq_some_iff.1 hq
  obtain ⟨L', c, h1, h2⟩ := pend_last hP q0 _ hq0 (recOf_reportable wd .modify n od)
  have := pend_again_last hP L' c { dir := d, known := p, name := n, kind := .modify, onDir := od } h1 ?_
  · rw [h1]; simpa using this
  · have e1 : (recOf wd .modify n od) = recOf wd c.kind c.name c.onDir := h2.eq
    have hb := bits_of wd c.kind c.name c.onDir
    have hb' := bits_of wd .modify n od
    rw [e1] at hb'
    have hkind : c.kind = .modify := by
      have h3 := hb.1
      rw [hb'.1] at h3
      simpa using h3
    have hname : c.name = n := (congrArg Rec.name e1).symm
    have hod : c.onDir = od := by rw [← hb.2.2.2.2.2.2.2.2.2, hb'.2.2.2.2.2.2.2.2.2]
    have hkn : c.known = p := by
      have := h2.known
      have e2 : (recOf wd .modify n od).wd = wd := rfl
      rw [e2, hk] at this
      injection this with this; exact this.symm
    exact ⟨rfl, hkind, hname, hod, hkn⟩

private theorem front_notify (h : Front S o L0 k) (d n : Str) (kd : Kind) (od : Bool) (hn : okName n = true) : Front S o L0 (notify k d n kd od) := by
  unfold notify
  cases hw : wdOf k d with
  | none => exact h
  | some wd =>
    simp only
    split
    · exact front_lose h
    obtain ⟨e, he, hewd, -, -⟩ := wdOf_mem hw
    obtain ⟨p, hk⟩ := h.hist e he
    rw [hewd] at hk
    simp only [hk, Option.getD_some]
    obtain ⟨old, new, La, Lb, a1, a2, a3, a4, a5, a6⟩ := h.split
    have hs : ∀ r ∈ enqueue k.queue (recOf wd kd n od) kd, r.name.length + r.pad ≤ 272 := by
      intro r hr
      unfold enqueue at hr
      split at hr
      · exact h.short r hr
      · rcases List.mem_append.1 hr with hr | hr
        · exact h.short r hr
        · rw [List.mem_singleton.1 hr]
          simp only [okName, Bool.and_eq_true, decide_eq_true_eq] at hn
          have := hn.1.1.2
          simp only [recOf]; omega
    refine ⟨h.hist, hs, h.young, ?_⟩
    by_cases hm : kd = .modify ∧ k.queue.getLast? = some (recOf wd kd n od)
    · have hq : enqueue k.queue (recOf wd kd n od) kd = k.queue := by simp [enqueue, hm]
      simp only [hq]
      obtain ⟨rfl, hm⟩ := hm
      rw [a1] at hm
      cases new with
      | nil =>
        have hb : Lb = [] := pend_empty a5 (by simp)
        subst hb
        rw [List.append_nil] at hm
        refine ⟨old, [], La ++ [{ dir := d, known := p, name := n, kind := .modify, onDir := od }], [], a1, a2, ?_, pend_merge a4 hk hm, .nil, ?_⟩
        · rw [a3]; simp
        · rw [← List.append_assoc]; exact a6.trans (List.prefix_append _ _)
      | cons r new =>
        refine ⟨old, r :: new, La, Lb ++ [{ dir := d, known := p, name := n, kind := .modify, onDir := od }], a1, a2, ?_, a4, pend_merge a5 hk ?_, a6⟩
        · rw [a3]; simp
        · rw [← hm]; rw [List.getLast?_append]; simp [List.getLast?_cons]
    · have hq : enqueue k.queue (recOf wd kd n od) kd = k.queue ++ [recOf wd kd n od] := by rw [enqueue, if_neg hm]
      simp only [hq]
      refine ⟨old, new ++ [recOf wd kd n od], La, Lb ++ [{ dir := d, known := p, name := n, kind := kd, onDir := od }], by rw [a1, List.append_assoc], a2, by rw [a3]; simp, a4,
        pend_append a5 (.one { dir := d, known := p, name := n, kind := kd, onDir := od } (recOf wd kd n od) ⟨rfl, hk, hn⟩ .nil), a6⟩

private theorem front_evict (h : Front S o L0 k) (wd : Int) : Front S o L0 (evictWd k wd) := by
  unfold evictWd
  split
  · have h1 : Front S o L0 { k with watches := k.watches.filter (fun e => e.1 != wd), dead := k.dead.filter (· != wd) } :=
      front_same h rfl rfl rfl rfl (fun e he => ⟨e, (List.mem_filter.1 he).1, rfl⟩)
    exact front_push (front_push h1 _ (delself_self wd) (by simp [deleteSelfRec])) _ (ignored_self wd) (by simp [ignoredRec])
  · exact h

private theorem front_bury (h : Front S o L0 k) (p : Str) : Front S o L0 (bury k p) := by
  unfold bury
  split <;> exact front_same h rfl rfl rfl rfl (fun e he => ⟨e, he, rfl⟩)

private theorem front_relocate (h : Front S o L0 k) (f : Str → Str) : Front S o L0 (relocate k f) := by
  refine front_same h rfl rfl rfl rfl ?_
  intro e he
  unfold relocate at he
  obtain ⟨e', h1, h2⟩ := List.mem_map.1 he
  exact ⟨e', h1, by rw [← h2]⟩

private theorem front_pushMoved (h : Front S o L0 k) (k0 : K) (p : Str) : Front S o L0 (pushMoved k0 k p) := by
  unfold pushMoved
  split
  · exact h
  · exact front_push h _ (movself_self _) (by simp [moveSelfRec])

private theorem front_moveDirK (h : Front S o L0 k) (d1 n1 d2 n2 : Str) (ck : BitVec 32) (h1 : okName n1 = true) (h2 : okName n2 = true) :
    Front S o L0 (moveDirK k d1 n1 d2 n2 ck) :=
  front_pushMoved (front_relocate (front_notify (front_notify h _ _ _ _ h1) _ _ _ _ h2) _) _ _

private theorem front_apply (h : Front S o L0 k) (op : Op) : Front S o L0 (apply k op) := by
  cases op with
  | create | modify | unlink | moveOut | moveIn =>
    simp only [apply]; split
    · rename_i hc
      try simp only [Bool.and_eq_true] at hc
      exact front_notify h _ _ _ _ (by first | exact hc | exact hc.1 | exact hc.1.1)
    · exact h
  | rename | cross =>
    simp only [apply]; split
    · rename_i hc
      simp only [Bool.and_eq_true] at hc
      exact front_notify (front_notify h _ _ _ _ (by first | exact hc.1 | exact hc.1.1 | exact hc.1.1.1)) _ _ _ _ (by first | exact hc.2 | exact hc.1.2 | exact hc.1.1.2)
    · exact h
  | mkdir d n | moveInDir d n =>
    simp only [apply]; split
    · rename_i hc
      simp only [Bool.and_eq_true] at hc
      have h1 : Front S o L0 { k with dirs := k.dirs ++ [entryPath d n] } := front_same h rfl rfl rfl rfl (fun e he => ⟨e, he, rfl⟩)
      exact front_notify h1 _ _ _ _ (by simp only [hc])
    · exact h
  | rmdir d n sf =>
    simp only [apply]; split
    · rename_i hc
      simp only [Bool.and_eq_true] at hc
      have hn : okName n = true := by first | exact hc | exact hc.1 | exact hc.1.1
      split
      · refine front_notify ?_ _ _ _ _ hn
        split
        · exact front_bury h _
        · exact front_evict (front_bury h _) _
      · exact front_notify (front_bury h _) _ _ _ _ hn
    · exact h
  | evict wd => exact front_evict h wd
  | moveDir d1 n1 d2 n2 ck =>
    simp only [apply]; split
    · rename_i hc
      simp only [Bool.and_eq_true] at hc
      exact front_moveDirK h _ _ _ _ _ (by simp only [hc]) (by simp only [hc])
    · exact h
  | moveOver d1 n1 d2 n2 ck =>
    simp only [apply]; split
    · rename_i hc
      simp only [Bool.and_eq_true] at hc
      exact front_moveDirK (front_bury h _) _ _ _ _ _ (by simp only [hc]) (by simp only [hc])
    · exact h
  | moveInOver d n ck =>
    simp only [apply]; split
    · rename_i hc
      simp only [Bool.and_eq_true] at hc
      have h1 : Front S o L0 { bury k (entryPath d n) with dirs := (bury k (entryPath d n)).dirs ++ [entryPath d n] } :=
        front_same (front_bury h (entryPath d n)) rfl rfl rfl rfl (fun e he => ⟨e, he, rfl⟩)
      exact front_notify h1 _ _ _ _ hc.1.1.1
    · exact h
  | swapDirs d1 n1 d2 n2 ck1 ck2 =>
    simp only [apply]; split
    · rename_i hc
      simp only [Bool.and_eq_true] at hc
      have hn1 : okName n1 = true := by simp only [hc]
      have hn2 : okName n2 = true := by simp only [hc]
      refine front_relocate (front_pushMoved (front_notify (front_notify (front_pushMoved (front_notify (front_notify h _ _ _ _ ?_) _ _ _ _ ?_) _ _) _ _ _ _ ?_) _ _ _ _ ?_) _ _) _
      all_goals assumption
    · exact h

private theorem front_tick {w : World} (h : Front S o L0 w.k) : Front S o L0 (tick w).2.k := by
  unfold tick
  split
  · exact h
  · rename_i ops _ _ _
    have : ∀ (ops : List Op) (k : K), Front S o L0 k → Front S o L0 (ops.foldl apply k) := by
      intro ops
      induction ops with
      | nil => intro k h; exact h
      | cons x ops ih => intro k h; exact ih _ (front_apply h x)
    exact this ops w.k h

private theorem front_addWatch (h : Front S o L0 k) (p : Str) : Front S o L0 (addWatchK k p).2 := by
  unfold addWatchK
  split
  · split
    · exact h
    · have look : ∀ wd q, k.hist.lookup wd = some q → ((k.next, p) :: k.hist).lookup wd = some q := by
        intro wd q hq
        have := h.young wd q hq
        rw [List.lookup_cons]
        have hne : (wd == k.next) = false := by simp; omega
        rw [hne]; exact hq
      obtain ⟨old, new, La, Lb, a1, a2, a3, a4, a5, a6⟩ := h.split
      refine ⟨?_, h.short, ?_, old, new, La, Lb, a1, a2, a3, pend_mono look a4, pend_mono look a5, a6⟩
      · intro e he
        rcases List.mem_cons.1 he with rfl | he
        · exact ⟨p, by simp [List.lookup_cons]⟩
        · obtain ⟨q, hq⟩ := h.hist e he
          exact ⟨q, look _ _ hq⟩
      · intro wd q hq
        simp only [List.lookup_cons] at hq
        split at hq
        · rename_i hx; simp only [beq_iff_eq] at hx; simp only; omega
        · have := h.young wd q hq; simp only; omega
  · exact h

private theorem front_mark (p : Str) (t : Table) (w : World) (h : Front S o L0 w.k) : Front S o L0 (markSpec Model.Ker.sys p t w).2.2.k := by
  have h1 : ∀ w p, Front S o L0 w.k → Front S o L0 (Model.Ker.sys.realpath w p).2.k := fun w p h => front_tick h
  have h2 : ∀ w p, Front S o L0 w.k → Front S o L0 (Model.Ker.sys.isDir w p).2.k := fun w p h => front_tick h
  have h3 : ∀ w p, Front S o L0 w.k → Front S o L0 (Model.Ker.sys.addWatch w p).2.k := by
    intro w p h
    show Front S o L0 (if (tick w).1 then ((-1 : Int), (tick w).2) else
        ((addWatchK (tick w).2.k p).1, { (tick w).2 with k := (addWatchK (tick w).2.k p).2 })).2.k
    split
    · exact front_tick h
    · exact front_addWatch (front_tick h) p
  unfold markSpec
  have g1 := h1 w p h
  cases hr : Model.Ker.sys.realpath w p with
  | mk x w1 =>
    rw [hr] at g1
    cases x with
    | none => exact g1
    | some real =>
      have g2 := h2 w1 real g1
      simp only
      cases hd : Model.Ker.sys.isDir w1 real with
      | mk b w2 =>
        rw [hd] at g2
        cases b with
        | false => exact g2
        | true =>
          have g3 := h3 w2 real g2
          simp only
          split
          · exact g3
          · exact g3

/-- One step: the front of the queue gets shorter with each read that returns. -/
private theorem front_exec {st st1 : St World} {L0h : List Change} (hi : HInv false false L0h st) (h : Front S o L0 st.sys.k)
    (ht : TellsL false (·.known) L0 (fileEvents st.out)) (s : Step) (he : exec st s = .ok st1) :
    ∃ L1, Front S (o - if returns st s then 1 else 0) L1 st1.sys.k ∧ TellsL false (·.known) L1 (fileEvents st1.out) := by
  cases s with
  | op x => cases he; exact ⟨L0, front_apply h x, ht⟩
  | read n sched =>
    simp only [exec] at he
    by_cases hf : (batch (st.sys.k.queue.take n)).length ≤ bufLen
    · rw [if_pos hf] at he
      have hb : Batch (st.sys.k.queue.take n) :=
        ⟨fun r hr => hi.inv.wf r (List.mem_of_mem_take hr), hf, linked_ordered (hi.inv.linked.sublist (List.take_sublist _ _))⟩
      rw [recv_eq Model.Ker.sys sys_sound (st.sys.k.queue.take n) hb
        { st with sys := { k := { st.sys.k with queue := st.sys.k.queue.drop n }, sched := sched } } hi.sound] at he
      simp only [Outcome.bind_ok] at he
      rw [if_pos (by decide)] at he
      cases he
      -- the split of the batch
      have key : ∃ L1, Pend st.sys.k.hist L1 (st.sys.k.queue.take n) ∧
          Front S (o - n) (L0 ++ L1) { st.sys.k with queue := st.sys.k.queue.drop n } := by
        obtain ⟨old, new, La, Lb, a1, a2, a3, a4, a5, a6⟩ := h.split
        by_cases hn : n ≤ old.length
        · obtain ⟨La1, La2, b1, b2, b3⟩ := pend_split a4 (old.take n) (old.drop n) (List.take_append_drop _ _).symm
          refine ⟨La1, ?_, h.hist, fun r hr => h.short r (List.mem_of_mem_drop hr), h.young, old.drop n, new, La2, Lb, ?_, ?_, ?_, b3, a5, ?_⟩
          · rw [a1, List.take_append_of_le_length hn]; exact b2
          · simp only [a1, List.drop_append_of_le_length hn]
          · simp only [List.length_drop]; omega
          · simp only [a3, b1, List.append_assoc]
          · rw [List.append_assoc, ← b1]; exact a6
        · obtain ⟨Lb1, Lb2, b1, b2, b3⟩ := pend_split a5 (new.take (n - old.length)) (new.drop (n - old.length)) (List.take_append_drop _ _).symm
          refine ⟨La ++ Lb1, ?_, h.hist, fun r hr => h.short r (List.mem_of_mem_drop hr), h.young, [], new.drop (n - old.length), [], Lb2, ?_, Nat.zero_le _, ?_, .nil, b3, ?_⟩
          · rw [a1, List.take_append, List.take_of_length_le (by omega)]; exact pend_append a4 b2
          · simp only [a1]; rw [List.drop_append, List.drop_eq_nil_of_le (by omega)]
          · simp only [a3, b1, List.append_assoc, List.nil_append]
          · rw [List.append_nil, ← List.append_assoc]; exact a6.trans (List.prefix_append _ _)
      obtain ⟨L1, hp, hk⟩ := key
      have hd : TellsL false (·.known) L1 (due st.dm (st.sys.k.queue.take n)) := by
        refine pend_tells hp (hi.inv.linked.sublist (List.take_sublist _ _)) ?_
        intro r hr hrep
        obtain ⟨p, hq⟩ := hi.inv.known r (List.mem_of_mem_take hr) hrep
        rw [hq, hi.inv.table _ _ hq]
      have hw := report_preserve Model.Ker.sys (fun _ w => Front S (o - n) (L0 ++ L1) w.k) (fun p t w hh => front_mark p t w hh) _ (st.sys.k.queue.take n) (Nat.le_refl _)
        st.dm { k := { st.sys.k with queue := st.sys.k.queue.drop n }, sched := sched } hk
      refine ⟨L0 ++ L1, ?_, ?_⟩
      · obtain ⟨old, new, La, Lb, a1, a2, a3⟩ := hw.split
        refine ⟨hw.hist, hw.short, hw.young, old, new, La, Lb, a1, ?_, a3⟩
        refine Nat.le_trans a2 ?_
        by_cases hx : returns st (.read n sched) = true
        · rw [if_pos hx]
          simp only [returns, Bool.and_eq_true, decide_eq_true_eq] at hx; omega
        · rw [if_neg hx]; omega
      · simp only
        rw [file_append, report_due' Model.Ker.sys _ _ (Nat.le_refl _)]
        · exact tells_append ht hd
        · intro r hr hrep; exact hi.inv.known r (List.mem_of_mem_take hr) hrep
    · rw [if_neg hf] at he; cases he
      have : returns st (.read n sched) = false := by
        have hf' : ¬ (batch (st.sys.k.queue.take n)).length ≤ 4096 := hf
        simp [returns, hf']
      rw [this]
      exact ⟨L0, h, ht⟩

private theorem front_execs : ∀ (ss : List Step) {st st1 : St World} {o : Nat} {L0 L0h : List Change}, HInv false false L0h st → Front S o L0 st.sys.k →
    TellsL false (·.known) L0 (fileEvents st.out) → execs st ss = .ok st1 →
    ∃ L1, Front S (o - reads st ss) L1 st1.sys.k ∧ TellsL false (·.known) L1 (fileEvents st1.out) := by
  intro ss
  induction ss with
  | nil => intro st st1 o L0 L0h _ h ht he; cases he; exact ⟨L0, h, ht⟩
  | cons s ss ih =>
    intro st st1 o L0 L0h hi h ht he
    obtain ⟨st2, L2h, g1, g2⟩ := hinv_exec hi s (fun h => by cases h) (fun h => by cases h)
    simp only [execs, g1, Outcome.bind_ok] at he
    obtain ⟨L2, g3, g4⟩ := front_exec hi h ht s g1
    obtain ⟨L1, g5, g6⟩ := ih g2 g3 g4 he
    refine ⟨L1, ?_, g6⟩
    simp only [reads, g1]
    rw [Nat.sub_sub] at g5
    exact g5

private theorem front_opened (limit : Option Nat) (dirs marks : List Str) (sched : List (List Op × Bool)) : Front [] 0 [] (openedLim limit dirs marks sched).sys.k := by
  have key : ∀ (ds : List Str) (st : St World), Front [] 0 [] st.sys.k → Front [] 0 [] (ds.foldl (fun st d => (doMark Model.Ker.sys d st).1) st).sys.k := by
    intro ds
    induction ds with
    | nil => intro st h; exact h
    | cons d ds ih =>
      intro st h
      rw [List.foldl_cons]
      refine ih _ ?_
      rw [Lemmas.In.doMark_eq]
      exact front_mark d st.dm st.sys h
  exact key marks { dm := [], sys := { k := { dirs := dirs, limit := limit }, sched := sched } }
    ⟨by simp, by simp, by simp, [], [], [], [], rfl, Nat.le_refl _, rfl, .nil, .nil, List.prefix_rfl⟩

/-- Where a history leads. -/
private theorem front_at {limit : Option Nat} {dirs marks : List Str} {sched : List (List Op × Bool)} {ss : List Step} {st : St World}
    (hst : execs (openedLim limit dirs marks sched) ss = .ok st) :
    ∃ L0 L0h, HInv false false L0h st ∧ TellsL false (·.known) L0 (fileEvents st.out) ∧ Front st.sys.k.log st.sys.k.queue.length L0 st.sys.k := by
  have h0 := (hinv_openLim (l := false) (m := false) limit dirs marks sched (fun h => by cases h) (fun h => by cases h)).1
  obtain ⟨st', L, h1, h2⟩ := hinv_execs ss h0 (fun h => by cases h) (fun h => by cases h)
  rw [hst] at h1; injection h1 with h1; subst h1
  obtain ⟨L1, g1, g2⟩ := front_execs ss h0 (front_opened limit dirs marks sched) h0.told hst
  obtain ⟨old, new, La, Lb, a1, a2, a3, a4, a5, a6⟩ := g1.split
  refine ⟨L1, L, h2, g2, g1.hist, g1.short, g1.young, st.sys.k.queue, [], La ++ Lb, [], by simp, Nat.le_refl _, by simpa using a3, ?_, .nil, by rw [a3]; exact List.prefix_rfl⟩
  rw [a1]; exact pend_append a4 a5

/-- C162. Whatever other processes do, and however much: a change in a watched directory for which the kernel's queue had room has been told once `read()` has
returned as often as there were records pending, whatever is done in the meantime. -/
theorem C162_no_starving (limit : Option Nat) (dirs marks : List Str) (sched : List (List Op × Bool)) (ss more : List Step) (st st1 : St World)
    (hst : execs (openedLim limit dirs marks sched) ss = .ok st) (hst1 : execs st more = .ok st1) (hr : st.sys.k.queue.length ≤ reads st more) :
    ∃ told pending, st1.sys.k.log = told ++ pending ∧ TellsOld (·.known) told (fileEvents st1.out) ∧ st.sys.k.log <+: told := by
  obtain ⟨L, Lh, h2, ht, hf⟩ := front_at hst
  obtain ⟨L1, g1, g2⟩ := front_execs more h2 hf ht hst1
  obtain ⟨old, new, La, Lb, a1, a2, a3, a4, a5, a6⟩ := g1.split
  have : old = [] := List.length_eq_zero_iff.1 (by omega)
  subst this
  have : La = [] := pend_empty a4 (by simp)
  subst this
  exact ⟨L1, Lb, by simpa using a3, g2.old, by simpa using a6⟩

/-- C162: `read()` can always return: whatever has happened, up to 14 pending records fit into the buffer. -/
theorem C162_read_returns (limit : Option Nat) (dirs marks : List Str) (sched : List (List Op × Bool)) (ss : List Step) (st : St World)
    (hst : execs (openedLim limit dirs marks sched) ss = .ok st) (n : Nat) (h0 : 0 < n) (hn : n ≤ 14) (during : List (List Op × Bool)) :
    returns st (.read n during) = true := by
  obtain ⟨L, Lh, h2, ht, hf⟩ := front_at hst
  have key : ∀ (q : List Rec), (∀ r ∈ q, r.name.length + r.pad ≤ 272) → (batch q).length ≤ 288 * q.length := by
    intro q
    induction q with
    | nil => intro _; simp [batch]
    | cons r q ih =>
      intro h
      have h1 := ih (fun r hr => h r (List.mem_cons_of_mem _ hr))
      have h2 := h r (by simp)
      rw [batch_cons, List.length_append, rec_length, List.length_cons]; omega
  have h3 := key (st.sys.k.queue.take n) (fun r hr => hf.short r (List.mem_of_mem_take hr))
  have h4 : (st.sys.k.queue.take n).length ≤ n := List.length_take_le _ _
  have h5 : 288 * (st.sys.k.queue.take n).length ≤ 288 * 14 := by omega
  simp only [returns, Bool.and_eq_true, decide_eq_true_eq]
  exact ⟨h0, by omega⟩

/-- A busy tree: 2 records are pending; of the next, two reads return, with more happening before and in between; then the first two changes are told, and
one that came later is not. -/
example : ∃ st, execs (opened [b!"/r", b!"/r/d"] [b!"/r", b!"/r/d"] []) [.op (.create b!"/r/d" b!"f"), .op (.modify b!"/r/d" b!"f")] = .ok st ∧
    (st.sys.k.queue.length = 2 ∧ reads st [.op (.modify b!"/r/d" b!"f"), .read 1 [], .op (.unlink b!"/r/d" b!"f"), .read 1 []] = 2 ∧
      (match execs st [.op (.modify b!"/r/d" b!"f"), .read 1 [], .op (.unlink b!"/r/d" b!"f"), .read 1 []] with
        | .ok st1 => decide (st1.sys.k.queue.length = 1 ∧ st1.sys.k.log.length = 4 ∧ (fileEvents st1.out).map (·.effect) = [.create, .modify])
        | .ub _ => false) = true) := exists_ok (by decide +kernel)

end Verif.Props
