import Verif.Lemmas.FKernel4
/-! Conditions on histories. -/
namespace Verif.Lemmas.FKer
open Verif Verif.Model Verif.Model.Fa Verif.Model.FKer Verif.Spec Verif.Spec.FKer Verif.Lemmas.Fa

variable {rf : Bool}

theorem allSched_congr {p q : Do → Bool} (h : ∀ x, p x = true → q x = true) {s : List (List Do × Bool)} (hs : allSched p s = true) : allSched q s = true := by
  unfold allSched at hs ⊢
  rw [List.all_eq_true] at hs ⊢
  intro x hx
  have := hs x hx
  rw [List.all_eq_true] at this ⊢
  exact fun y hy => h y (this y hy)

theorem allOps_congr {p q : Do → Bool} (h : ∀ x, p x = true → q x = true) {ss : List Step} (hs : ss.all (allOps p) = true) : ss.all (allOps q) = true := by
  rw [List.all_eq_true] at hs ⊢
  intro s hm
  have := hs s hm
  cases s with
  | op o => exact h o this
  | read n sched => exact allSched_congr h this

theorem allowed_false (x : Do) (h : keeps x = true) : allowed false x = true := by simp [allowed, mild, h]
theorem allowed_true (x : Do) (h : (keeps x && apart x) = true) : allowed true x = true := by simpa [allowed, mild] using h

theorem mild_false (sched : List (List Do × Bool)) : allSched (mild false) sched = true :=
  List.all_eq_true.2 (fun _ _ => List.all_eq_true.2 (fun _ _ => rfl))

theorem keeps_reads {ss : List Step} (h : ss.all (allOps keeps) = true) : ss.all (allReads keeps) = true := by
  rw [List.all_eq_true] at h ⊢
  intro s hs
  have := h s hs
  cases s with
  | op o => rfl
  | read n sched => exact this

theorem reads_false {ss : List Step} (h : ss.all (allReads keeps) = true) : ss.all (allowedStep false) = true := by
  rw [List.all_eq_true] at h ⊢
  intro s hs
  have := h s hs
  cases s with
  | op o => rfl
  | read n sched => rw [allowedStep, Bool.and_eq_true]; exact ⟨mild_false sched, this⟩

theorem mild_true {x : Do} (h : apart x = true) : mild true x = true := by simpa [mild] using h

theorem reads_true {ss : List Step} (h : ss.all (allReads keeps) = true) (h2 : ss.all (allOps apart) = true) : ss.all (allowedStep true) = true := by
  rw [List.all_eq_true] at h h2 ⊢
  intro s hs
  have := h s hs
  have h2 := h2 s hs
  cases s with
  | op o => rw [allowedStep, Bool.and_eq_true]; exact ⟨mild_true h2, rfl⟩
  | read n sched => rw [allowedStep, Bool.and_eq_true]; exact ⟨allSched_congr (fun _ => mild_true) h2, this⟩

theorem plain_keeps {x : Do} (h : plain x = true) : keeps x = true := by
  obtain ⟨op, who⟩ := x
  cases op <;> first | rfl | exact h

/-- Nothing was moved so far. -/
def Unmoved (k : K) : Prop := ∀ c ∈ k.log, c.kind ≠ .moveFrom ∧ c.kind ≠ .moveTo

theorem notify_unmoved {k : K} (h : Unmoved k) (d n : Str) (kind : Kind) (od : Bool) (who : Who) (hk : kind ≠ .moveFrom ∧ kind ≠ .moveTo) :
    Unmoved (notify k d n kind od who) := by
  unfold notify
  split
  · exact h
  · split
    · intro c hc
      rcases List.mem_append.1 hc with hc | hc
      · exact h c hc
      · rw [List.mem_singleton] at hc; subst hc; exact hk
    · exact h

theorem doIt_unmoved {k : K} (h : Unmoved k) (x : Do) (hp : plain x = true) : Unmoved (doIt k x) := by
  unfold doIt
  split
  · obtain ⟨op, who⟩ := x
    cases op with
    | create d n => simp only [apply]; split; exact notify_unmoved h _ _ _ _ _ (by simp); exact h
    | modify d n => simp only [apply]; split; exact notify_unmoved h _ _ _ _ _ (by simp); exact h
    | unlink d n => simp only [apply]; split; exact notify_unmoved h _ _ _ _ _ (by simp); exact h
    | mkdir d n g =>
      simp only [apply]
      split
      · exact notify_unmoved (k := { k with dirs := k.dirs ++ [(g, child d n)], past := k.past ++ [(g, child d n)] }) h _ _ _ _ _ (by simp)
      · exact h
    | move => cases hp
    | rmdir => cases hp
    | moveDir => cases hp
    | moveOver => cases hp
    | swapDirs => cases hp
  · exact h

theorem doIts_unmoved (xs : List Do) : ∀ {k : K}, Unmoved k → xs.all plain = true → Unmoved (xs.foldl doIt k) := by
  induction xs with
  | nil => intro k h _; exact h
  | cons x xs ih =>
    intro k h hp
    rw [List.all_cons, Bool.and_eq_true] at hp
    exact ih (doIt_unmoved h x hp.1) hp.2

/-- Worlds in which nothing is moved. -/
structure PInv (w : World) : Prop where
  k : Unmoved w.k
  sched : allSched plain w.sched = true

theorem tick_plain {w : World} (h : PInv w) : PInv (tick w).2 := by
  unfold tick
  split
  · exact h
  · rename_i ops fail rest hs
    have hsc := h.sched
    rw [hs] at hsc
    unfold allSched at hsc
    rw [List.all_cons, Bool.and_eq_true] at hsc
    exact ⟨doIts_unmoved ops h.k hsc.1, hsc.2⟩

theorem later_plain {w0 w : World} (hk : PInv w0) (hw : Fa.Later (sys rf) w0 w) : PInv w := by
  induction hw with
  | now => exact hk
  | realpath p _ ih => exact tick_plain ih
  | isDir p _ ih => exact tick_plain ih
  | readlink fd _ ih => exact tick_plain ih
  | @openByHandle w h _ ih =>
    have := tick_plain ih
    simp only [sys]
    split
    · exact ⟨this.k, this.sched⟩
    · exact this
  | @mark w p _ ih =>
    have := tick_plain ih
    simp only [sys]
    split
    · exact this
    · split
      · exact this
      · exact ⟨this.k, this.sched⟩

/-- The state of such a watch between two steps. -/
structure QInv (st : Fa.St World) : Prop where
  h : HInv st
  u : Unmoved st.sys.k

theorem unmoved_rec {k : K} (h : Unmoved k) {past : List (Handle × Str)} {r : FRec} (hc : Cov k.log past r) : r.movedFrom = false ∧ r.movedTo = false := by
  constructor
  · cases hx : r.movedFrom with
    | false => rfl
    | true =>
      obtain ⟨c, h1, h2⟩ := hc.bits .moveFrom hx
      exact absurd h2.2.2.1 (h c h1).1
  · cases hx : r.movedTo with
    | false => rfl
    | true =>
      obtain ⟨c, h1, h2⟩ := hc.bits .moveTo hx
      exact absurd h2.2.2.1 (h c h1).2

theorem noswap_plain : ∀ (rs : List FRec), (∀ r ∈ rs, r.movedFrom = false ∧ r.movedTo = false) → NoSwap rs := by
  intro rs
  induction rs with
  | nil => intro _; trivial
  | cons a rs ih =>
    intro h
    cases rs with
    | nil => trivial
    | cons b rest =>
      refine ⟨?_, ih (fun r hr => h r (List.mem_cons_of_mem _ hr))⟩
      intro hx
      simp only [FRec.toFrom, Bool.and_eq_true] at hx
      rw [(h a (by simp)).2] at hx
      cases hx.1.2

theorem roomy_plain {rs : List FRec} (h : ∀ r ∈ rs, r.movedFrom = false ∧ r.movedTo = false) : Roomy rs := by
  refine .inr ?_
  rintro ⟨l, a, b, rfl, hx⟩
  simp only [FRec.fromTo, Bool.and_eq_true] at hx
  rw [(h a (by simp)).1] at hx
  cases hx.1.2

theorem exec_plain {st st' : Fa.St World} (h : QInv st) (s : Step) (hp : allOps plain s = true) (he : exec rf st s = .ok st') : QInv st' := by
  refine ⟨exec_hinv h.h s he, ?_⟩
  cases s with
  | op x =>
    simp only [exec, Outcome.ok.injEq] at he
    subst he
    exact doIt_unmoved h.u x hp
  | read n sched =>
    simp only [exec] at he
    split at he
    · rename_i hfit
      obtain ⟨⟨st1, res⟩, h1, h2⟩ := bind_inv he
      simp only at h2
      split at h2
      · simp only [Outcome.pure_eq, Outcome.ok.injEq] at h2
        subst h2
        obtain ⟨new, o1, o2, o3⟩ := recv_drawn (sys rf) (sound rf) _
          ⟨fun r hr => (h.h.k.queue r (List.mem_of_mem_take hr)).wf, hfit⟩ _ _ _ h1
        exact (later_plain (w0 := { st.sys with k := { st.sys.k with queue := st.sys.k.queue.drop n }, sched := sched }) ⟨h.u, hp⟩ o3).k
      · cases h2
    · injection he with he; subst he; exact h.u

theorem fine_plain (ss : List Step) : ∀ {st : Fa.St World}, QInv st → ss.all (allOps plain) = true → Fine rf st ss := by
  induction ss with
  | nil => intro st _ _; trivial
  | cons s ss ih =>
    intro st h ha
    rw [List.all_cons, Bool.and_eq_true] at ha
    cases s with
    | op x => exact fun st' he => ih (exec_plain h _ ha.1 he) ha.2
    | read n sched =>
      have hr : ∀ r ∈ st.sys.k.queue.take n, r.movedFrom = false ∧ r.movedTo = false :=
        fun r hr => unmoved_rec h.u (h.h.k.queue r (List.mem_of_mem_take hr))
      exact ⟨noswap_plain _ hr, roomy_plain hr, fun st' he => ih (exec_plain h _ ha.1 he) ha.2⟩

theorem opened_plain {dirs : List (Handle × Str)} (hg : GoodTree dirs) (marks : List Str) (sched : List (List Do × Bool))
    (hs : allSched plain sched = true) : QInv (opened rf dirs marks sched) := by
  refine ⟨opened_hinv hg marks sched, ?_⟩
  have key : ∀ (ms : List Str) (st : Fa.St World), PInv st.sys → PInv (ms.foldl (fun st d => (doMark (sys rf) d st).1) st).sys := by
    intro ms
    induction ms with
    | nil => intro st a; exact a
    | cons p ms ih => intro st a; exact ih _ (later_plain a (mark_later (sys rf) p st .now))
  unfold opened
  refine (key marks _ ⟨?_, hs⟩).k
  intro c hc
  cases hc

/-! ### Without removals of directories all paths are real -/

theorem later_w {need : Handle → Prop} {m : Bool} {seen : List Change} {w0 w : World} (h : WInvN need m seen w0) (hw : Fa.Later (sys rf) w0 w) :
    WInvN need m seen w := by
  induction hw with
  | now => exact h
  | realpath p _ ih => exact (tick_w ih).1
  | isDir p _ ih => exact (tick_w ih).1
  | readlink fd _ ih => exact (tick_w ih).1
  | @openByHandle w g _ ih =>
    have := (tick_w ih).1
    simp only [sys]
    split
    · exact this.cur _
    · exact this
  | mark p _ ih => exact (mark_w ih p).1

/-- What does not happen later. -/
structure Calm (w : World) : Prop where
  k : KInv w.k
  sched : allSched keeps w.sched = true

theorem tick_calm {w : World} (h : Calm w) : Calm (tick w).2 := by
  refine ⟨(tick_kinv h.k).1, ?_⟩
  have hs := h.sched
  unfold tick
  split
  · exact hs
  · rename_i ops fail rest he
    rw [he, allSched, List.all_cons, Bool.and_eq_true] at hs
    exact hs.2

theorem later_calm {w0 w : World} (h : Calm w0) (hw : Fa.Later (sys rf) w0 w) : Calm w := by
  refine ⟨(later_kinv h.k hw).1, ?_⟩
  induction hw with
  | now => exact h.sched
  | realpath p a ih => exact (tick_calm ⟨(later_kinv h.k a).1, ih⟩).sched
  | isDir p a ih => exact (tick_calm ⟨(later_kinv h.k a).1, ih⟩).sched
  | readlink fd a ih => exact (tick_calm ⟨(later_kinv h.k a).1, ih⟩).sched
  | @openByHandle w g a ih =>
    have := (tick_calm ⟨(later_kinv h.k a).1, ih⟩).sched
    simp only [sys]
    split
    · exact this
    · exact this
  | @mark w p a ih =>
    have := (tick_calm ⟨(later_kinv h.k a).1, ih⟩).sched
    simp only [sys]
    split
    · exact this
    · split
      · exact this
      · exact this

/-- A directory that could be opened is still there when its path is asked for. -/
theorem resolve_here {w : World} (hw : Calm w) {r : FRec} {p : Str} (hr : (Fa.resolve (sys rf) r w).1 = some p) :
    r.handle ∈ (Fa.resolve (sys rf) r w).2.k.dirs.map (·.1) := by
  unfold Fa.resolve at hr ⊢
  cases ho : (tick w).2.k.dirs.lookup r.handle with
  | none =>
    have e : (sys rf).openByHandle w r.handle = ((-1, 116), (tick w).2) := by simp only [sys, ho]
    rw [e] at hr
    simp at hr
  | some q =>
    have e : (sys rf).openByHandle w r.handle = ((3, 0), { (tick w).2 with cur := r.handle }) := by simp only [sys, ho]
    rw [e] at hr ⊢
    simp only at hr ⊢
    rw [if_neg (by decide)] at hr ⊢
    have hc := tick_calm hw
    have hin : r.handle ∈ (tick w).2.k.dirs.map (·.1) := List.mem_map.2 ⟨_, lookup_mem' ho, rfl⟩
    have hi : WInvN (fun h => h = r.handle) false (tick w).2.k.log { (tick w).2 with cur := r.handle } :=
      ⟨hc.k, fun e _ h => by rw [h]; exact hin, fun c hc => .inl hc, List.all_eq_true.2 (fun _ _ => List.all_eq_true.2 (fun _ _ => rfl)), .inl hc.sched⟩
    have h2 := tick_w hi
    have hm : (r.handle, q) ∈ (tick { (tick w).2 with cur := r.handle }).2.k.past := h2.2.past.subset (hc.k.past _ (lookup_mem' ho))
    exact h2.1.here _ hm rfl

theorem wasAt_at {w0 w1 : World} (hk : Calm w0) {r : FRec} (hn : okName r.name = true) {p : Str}
    (h : Fa.WasAt (sys rf) w0 w1 r p) {c : Change} (h1 : c.handle = r.handle) (h2 : c.name = r.name) : Spec.FKer.At w1.k.past c p := by
  obtain ⟨w, hw, hr, hl⟩ := h
  have hkw := later_calm hk hw
  obtain ⟨d, hd, hp⟩ := resolve_past hkw.k hn hr
  have hk2 := later_calm hkw (resolve_later (sys rf) w r)
  have hd' := (later_kinv hk2.k hl).2.past.subset hd
  rcases hp with rfl | ⟨_, hx⟩
  · exact ⟨d, by rw [h1]; exact hd', by rw [h2]⟩
  · exact absurd (resolve_here hkw hr) hx

/-- The state of a watch in the middle of a history in which no directory is removed during a read. -/
structure SInv (st : Fa.St World) : Prop where
  k : KInv st.sys.k
  out : ∀ e ∈ fileEvents (st.out.map Prod.fst), Genuine (Spec.FKer.At st.sys.k.past) st.sys.k.log e

theorem exec_sinv {st st' : Fa.St World} (h : SInv st) (s : Step) (hs : allReads keeps s = true) (he : exec rf st s = .ok st') : SInv st' := by
  cases s with
  | op x =>
    simp only [exec, Outcome.ok.injEq] at he
    subst he
    have := doIt_kinv h.k x
    exact ⟨this.1, fun e hm => Genuine.mono this.2.log (fun _ _ => At.mono this.2.past) (h.out e hm)⟩
  | read n sched =>
    simp only [exec] at he
    split at he
    · rename_i hfit
      obtain ⟨⟨st1, res⟩, h1, h2⟩ := bind_inv he
      simp only at h2
      split at h2
      · simp only [Outcome.pure_eq, Outcome.ok.injEq] at h2
        subst h2
        have hk0 := take_kinv h.k n
        have hw : Calm { st.sys with k := { st.sys.k with queue := st.sys.k.queue.drop n }, sched := sched } := ⟨hk0, hs⟩
        have hcov : ∀ r ∈ st.sys.k.queue.take n, Cov st.sys.k.log st.sys.k.past r := fun r hr => h.k.queue r (List.mem_of_mem_take hr)
        obtain ⟨new, o1, o2, o3⟩ := recv_drawn (sys rf) (sound rf) _ ⟨fun r hr => (hcov r hr).wf, hfit⟩ _ _ _ h1
        have hg := drawn_genuine (rf := rf) (w0 := { st.sys with k := { st.sys.k with queue := st.sys.k.queue.drop n }, sched := sched }) hk0 o3
          (fun r p hn hx c => wasAt_at hw hn hx) hcov o2
        have hkk := later_kinv (rf := rf) (w0 := { st.sys with k := { st.sys.k with queue := st.sys.k.queue.drop n }, sched := sched }) hk0 o3
        refine ⟨hkk.1, ?_⟩
        intro e hm
        rw [o1, List.map_append, fileEvents_append] at hm
        rcases List.mem_append.1 hm with hm | hm
        · exact Genuine.mono hkk.2.log (fun _ _ => At.mono hkk.2.past) (h.out e hm)
        · exact hg e hm
      · cases h2
    · injection he with he; subst he; exact h

theorem execs_sinv (ss : List Step) : ∀ {st st' : Fa.St World}, SInv st → ss.all (allReads keeps) = true → execs rf st ss = .ok st' → SInv st' := by
  induction ss with
  | nil => intro st st' h _ he; cases he; exact h
  | cons s ss ih =>
    intro st st' h ha he
    rw [List.all_cons, Bool.and_eq_true] at ha
    rw [execs] at he
    obtain ⟨st1, h1, h2⟩ := bind_inv he
    exact ih (exec_sinv h s ha.1 h1) ha.2 h2

theorem exec_here {st st' : Fa.St World} (hk : KInv st.sys.k) (hh : AllHere st.sys.k) (s : Step) (ha : allOps keeps s = true)
    (he : exec rf st s = .ok st') : KInv st'.sys.k ∧ AllHere st'.sys.k := by
  cases s with
  | op x =>
    simp only [exec, Outcome.ok.injEq] at he
    subst he
    exact ⟨(doIt_kinv hk x).1, doIt_here hh x ha⟩
  | read n sched =>
    simp only [exec] at he
    split at he
    · rename_i hfit
      obtain ⟨⟨st1, res⟩, h1, h2⟩ := bind_inv he
      simp only at h2
      split at h2
      · simp only [Outcome.pure_eq, Outcome.ok.injEq] at h2
        subst h2
        obtain ⟨new, o1, o2, o3⟩ := recv_drawn (sys rf) (sound rf) _ ⟨fun r hr => (hk.queue r (List.mem_of_mem_take hr)).wf, hfit⟩ _ _ _ h1
        have hw : WInv false st.sys.k.log { st.sys with k := { st.sys.k with queue := st.sys.k.queue.drop n }, sched := sched } :=
          ⟨take_kinv hk n, hh, fun c hc => .inl hc, mild_false _, .inl ha⟩
        have := later_w hw o3
        exact ⟨this.k, this.here⟩
      · cases h2
    · injection he with he; subst he; exact ⟨hk, hh⟩

theorem execs_here (ss : List Step) : ∀ {st st' : Fa.St World}, KInv st.sys.k → AllHere st.sys.k → ss.all (allOps keeps) = true →
    execs rf st ss = .ok st' → KInv st'.sys.k ∧ AllHere st'.sys.k := by
  induction ss with
  | nil => intro st st' hk hh _ he; cases he; exact ⟨hk, hh⟩
  | cons s ss ih =>
    intro st st' hk hh ha he
    rw [List.all_cons, Bool.and_eq_true] at ha
    rw [execs] at he
    obtain ⟨st1, h1, h2⟩ := bind_inv he
    have := exec_here hk hh s ha.1 h1
    exact ih this.1 this.2 ha.2 h2

/-- If no directory is ever removed, all are there. -/
theorem present_of_keeps (ss : List Step) : ∀ {st : Fa.St World}, KInv st.sys.k → AllHere st.sys.k → ss.all (allOps keeps) = true → Present rf st ss := by
  induction ss with
  | nil => intro st _ _ _; trivial
  | cons s ss ih =>
    intro st hk hh ha
    rw [List.all_cons, Bool.and_eq_true] at ha
    cases s with
    | op x =>
      intro st' he
      have := exec_here hk hh _ ha.1 he
      exact ih this.1 this.2 ha.2
    | read n sched =>
      refine ⟨?_, ?_⟩
      · intro r hr
        obtain ⟨e, h1, h2⟩ := List.mem_map.1 (hk.queue r (List.mem_of_mem_take hr)).known
        rw [← h2]
        exact hh e h1 trivial
      · intro st' he
        have := exec_here hk hh _ ha.1 he
        exact ih this.1 this.2 ha.2

theorem opened_nothing (dirs : List (Handle × Str)) (marks : List Str) (sched : List (List Do × Bool)) :
    fileEvents ((opened rf dirs marks sched).out.map Prod.fst) = [] := by
  have : ∀ (ms : List Str) (st : Fa.St World), fileEvents (st.out.map Prod.fst) = [] →
      fileEvents ((ms.foldl (fun st d => (doMark (sys rf) d st).1) st).out.map Prod.fst) = [] := by
    intro ms
    induction ms with
    | nil => intro st h; exact h
    | cons p ms ih =>
      intro st h
      refine ih _ ?_
      have : fileEvents ((doMark (sys rf) p st).1.out.map Prod.fst) = fileEvents (st.out.map Prod.fst) := by
        unfold Fa.doMark
        repeat' split
        all_goals simp [fileEvents, sendMsg, St.send]
      rw [this, h]
  exact this marks _ rfl

theorem opened_sinv {dirs : List (Handle × Str)} (hg : GoodTree dirs) (marks : List Str) (sched : List (List Do × Bool)) :
    SInv (opened rf dirs marks sched) := by
  have h := opened_tinv (rf := rf) (m := false) hg marks sched (List.all_eq_true.2 (fun _ _ => List.all_eq_true.2 (fun _ _ => rfl)))
  refine ⟨h.k, ?_⟩
  rw [opened_nothing]
  intro e he
  cases he

theorem opened_here {dirs : List (Handle × Str)} (hg : GoodTree dirs) (marks : List Str) (sched : List (List Do × Bool))
    (hs : allSched keeps sched = true) : AllHere (opened rf dirs marks sched).sys.k := by
  have key : ∀ (ms : List Str) (st : Fa.St World), WInv false [] st.sys → WInv false [] (ms.foldl (fun st d => (doMark (sys rf) d st).1) st).sys := by
    intro ms
    induction ms with
    | nil => intro st a; exact a
    | cons p ms ih => intro st a; exact ih _ (later_w a (mark_later (sys rf) p st .now))
  unfold opened
  exact (key marks _ ⟨kinv_open hg, fun e he _ => List.mem_map.2 ⟨e, he, rfl⟩, (fun c hc => by cases hc), mild_false _, .inl hs⟩).here

/-! ### Checking `Fine` on a concrete history -/

def noSwapB : List FRec → Bool
  | a :: b :: rest => (!a.toFrom b || a.fromTo b) && noSwapB (b :: rest)
  | _ => true

theorem noSwapB_ok : ∀ (rs : List FRec), noSwapB rs = true → NoSwap rs
  | [], _ => trivial
  | [_], _ => trivial
  | a :: b :: rest, h => by
    rw [noSwapB, Bool.and_eq_true, Bool.or_eq_true] at h
    refine ⟨?_, noSwapB_ok _ h.2⟩
    intro ht
    rcases h.1 with h | h
    · rw [ht] at h; cases h
    · exact h

/-- Runs the history. -/
def fineB (rf : Bool) (st : Fa.St World) : List Step → Bool
  | [] => true
  | .op o :: ss => match exec rf st (.op o) with | .ok st' => fineB rf st' ss | .ub _ => true
  | .read n sched :: ss => noSwapB (st.sys.k.queue.take n) && decide ((fbatch (st.sys.k.queue.take n)).length ≤ 4092) &&
      match exec rf st (.read n sched) with | .ok st' => fineB rf st' ss | .ub _ => true

theorem fineB_ok (ss : List Step) : ∀ {st : Fa.St World}, fineB rf st ss = true → Fine rf st ss := by
  induction ss with
  | nil => intro _ _; trivial
  | cons s ss ih =>
    intro st h
    cases s with
    | op o =>
      intro st' h'
      rw [fineB, h'] at h
      exact ih h
    | read n sched =>
      rw [fineB, Bool.and_eq_true, Bool.and_eq_true] at h
      refine ⟨noSwapB_ok _ h.1.1, .inl (of_decide_eq_true h.1.2), ?_⟩
      intro st' h'
      have h2 := h.2
      rw [h'] at h2
      exact ih h2

/-- The same for `Present`. -/
def presentB (rf : Bool) (st : Fa.St World) : List Step → Bool
  | [] => true
  | .op o :: ss => match exec rf st (.op o) with | .ok st' => presentB rf st' ss | .ub _ => true
  | .read n sched :: ss => (st.sys.k.queue.take n).all (fun r => (st.sys.k.dirs.map (·.1)).contains r.handle) &&
      match exec rf st (.read n sched) with | .ok st' => presentB rf st' ss | .ub _ => true

theorem presentB_ok (ss : List Step) : ∀ {st : Fa.St World}, presentB rf st ss = true → Present rf st ss := by
  induction ss with
  | nil => intro _ _; trivial
  | cons s ss ih =>
    intro st h
    cases s with
    | op o =>
      intro st' he
      simp only [presentB, he] at h
      exact ih h
    | read n sched =>
      simp only [presentB, Bool.and_eq_true] at h
      refine ⟨fun r hr => by simpa using List.all_eq_true.1 h.1 r hr, fun st' he => ?_⟩
      have h2 := h.2
      simp only [he] at h2
      exact ih h2

end Verif.Lemmas.FKer
