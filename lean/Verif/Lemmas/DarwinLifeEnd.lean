import Verif.Lemmas.DarwinLifeLog
import Verif.Lemmas.Darwin
/-! Closing ends: a potential for `Model/DarwinLife.lean`. -/
namespace Verif.Lemmas.DLife
open Verif Verif.Model Verif.Model.DLife Verif.Spec.DLife
open Verif.Model.Darwin (Note Ctx recvOne recvAll onCreate onRemove onModify onRename)

variable {d : Bool}

theorem recvOne_few (c : Ctx) (n : Note) : (recvOne { c with out := [] } n).out.length ≤ 4 := by
  have cr : ∀ (c : Ctx) f pt, (onCreate c n.path f pt).out.length ≤ c.out.length + 1 := by
    intro c f pt; simp only [onCreate, Ctx.send]; split <;> (try split) <;> simp
  have rm : ∀ (c : Ctx) f pt, (onRemove c n.path f pt).out.length ≤ c.out.length + 1 := by
    intro c f pt; simp only [onRemove, Ctx.send]; split <;> (try split) <;> simp
  have mo : ∀ (c : Ctx) f pt, (onModify c n.path f pt).out.length ≤ c.out.length + 1 := by
    intro c f pt; simp only [onModify, Ctx.send]; split <;> (try split) <;> simp
  have rn : ∀ (c : Ctx) f pt m, (onRename c n.path f pt m).out.length ≤ c.out.length + 1 := by
    intro c f pt m; simp only [onRename, Ctx.send]; split <;> (try split) <;> simp
  simp only [recvOne]
  split
  · simp [Ctx.send]
  · have h1 := cr { c with out := [] } n.flags (Darwin.ptypeOf n.flags)
    refine Nat.le_trans (rn _ _ _ _) ?_
    have h2 := rm (onCreate { c with out := [] } n.path n.flags (Darwin.ptypeOf n.flags)) n.flags (Darwin.ptypeOf n.flags)
    have h3 := mo (onRemove (onCreate { c with out := [] } n.path n.flags (Darwin.ptypeOf n.flags)) n.path n.flags (Darwin.ptypeOf n.flags)) n.flags (Darwin.ptypeOf n.flags)
    simp only [List.length_nil] at h1
    omega

/-- Events of notifications are never about the watcher itself. -/
theorem recvAll_types : ∀ (ns : List Note) (c : Ctx), (∀ e ∈ c.out, e.ptype ≠ .watcher) → ∀ e ∈ (recvAll c ns).out, e.ptype ≠ .watcher := by
  intro ns
  induction ns with
  | nil => intro c h; exact h
  | cons n ns ih =>
    intro c h
    have hp : Darwin.ptypeOf n.flags ≠ .watcher := by
      unfold Darwin.ptypeOf; repeat' split
      all_goals simp
    have send : ∀ (c : Ctx) (e : Ev), (∀ e ∈ c.out, e.ptype ≠ .watcher) → e.ptype ≠ .watcher → ∀ x ∈ c.out ++ [e], x.ptype ≠ .watcher := by
      intro c e h1 h2 x hx
      rcases List.mem_append.1 hx with hx | hx
      · exact h1 x hx
      · rw [List.mem_singleton.1 hx]; exact h2
    have cr : ∀ (c : Ctx), (∀ e ∈ c.out, e.ptype ≠ .watcher) → ∀ e ∈ (onCreate c n.path n.flags (Darwin.ptypeOf n.flags)).out, e.ptype ≠ .watcher := by
      intro c h; simp only [onCreate, Ctx.send]; split <;> (try split) <;> first | exact h | exact send c _ h hp
    have rm : ∀ (c : Ctx), (∀ e ∈ c.out, e.ptype ≠ .watcher) → ∀ e ∈ (onRemove c n.path n.flags (Darwin.ptypeOf n.flags)).out, e.ptype ≠ .watcher := by
      intro c h; simp only [onRemove, Ctx.send]; split <;> (try split) <;> first | exact h | exact send c _ h hp
    have mo : ∀ (c : Ctx), (∀ e ∈ c.out, e.ptype ≠ .watcher) → ∀ e ∈ (onModify c n.path n.flags (Darwin.ptypeOf n.flags)).out, e.ptype ≠ .watcher := by
      intro c h; simp only [onModify, Ctx.send]; split <;> (try split) <;> first | exact h | exact send c _ h hp
    have rn : ∀ (c : Ctx), (∀ e ∈ c.out, e.ptype ≠ .watcher) → ∀ e ∈ (onRename c n.path n.flags (Darwin.ptypeOf n.flags) n.missing).out, e.ptype ≠ .watcher := by
      intro c h; simp only [onRename, Ctx.send]; split <;> (try split) <;> first | exact h | exact send c _ h hp
    refine ih _ ?_
    simp only [recvOne]
    split
    · exact send c _ h hp
    · exact rn _ (mo _ (rm _ (cr _ h)))

/-- Steps the worker has still to make. -/
def wLeft : WPc → Nat
  | .start => 13
  | .check => 12
  | .live _ => 11
  | .inLive _ => 10
  | .opening => 9
  | .ask => 8
  | .sleep => 7
  | .close _ => 6
  | .flush _ => 5
  | .leave _ => 4
  | .die _ _ => 3
  | .inDie _ _ => 2
  | .setFut _ => 1
  | .finished => 0
  | .liveClose .cas _ => 14
  | .liveClose .signal _ => 13
  | .liveClose .valid _ => 12
  | .liveClose .get _ => 11
  | .dieClose .cas _ _ => 6
  | .dieClose .signal _ _ => 5
  | .dieClose .valid _ _ => 4
  | .dieClose .get _ _ => 3

theorem wLeft_step {s s' : St} {a : Act} (hs : step true d s a = some s') (hc : a ≠ .cbClose) :
    wLeft s'.w + (if isWorker a then 1 else 0) ≤ wLeft s.w := by
  cases a with
  | w =>
    simp only [step, wStep] at hs
    split at hs <;> (try unfold closeStep at hs) <;> (repeat' split at hs) <;> simp at hs <;> (try subst hs) <;> grind [wLeft, isWorker]
  | k =>
    simp only [step, kStep] at hs
    split at hs <;> (try unfold closeStep at hs) <;> (repeat' split at hs) <;> simp at hs <;> (try subst hs) <;> grind [isWorker]
  | o =>
    simp only [step, oStep] at hs
    split at hs <;> (try unfold closeStep at hs) <;> (repeat' split at hs) <;> simp at hs <;> (try subst hs) <;> grind [isWorker]
  | cbClose => exact absurd rfl hc
  | _ =>
    simp only [step] at hs
    (repeat' split at hs) <;> simp at hs <;> (try subst hs) <;> grind [wLeft, isWorker]

/-- Steps the thread in `event_recv` has still to make before it gives the mutex back. -/
def kLeft : KPc → Nat
  | .free => 0
  | .handling es ns => 1 + 2 * es.length + 9 * ns.length
  | .inCb es ns => 2 + 2 * es.length + 9 * ns.length
  | .selfClose .cas es ns => 6 + 2 * es.length + 9 * ns.length
  | .selfClose .signal es ns => 5 + 2 * es.length + 9 * ns.length
  | .selfClose .valid es ns => 4 + 2 * es.length + 9 * ns.length
  | .selfClose .get es ns => 3 + 2 * es.length + 9 * ns.length

/-- Steps for batches that wait. -/
def load (extra : Nat) (bs : List (List Note)) : Nat := (bs.map (fun b => extra + 9 * b.length)).sum

theorem load_append (e : Nat) (a b : List (List Note)) : load e (a ++ b) = load e a + load e b := by simp [load]

theorem load_erase (e : Nat) : ∀ (l : List (List Note)) (i : Nat) (b : List Note), l[i]? = some b → load e l = load e (l.eraseIdx i) + (e + 9 * b.length)
  | [], i, b, h => by simp at h
  | x :: l, 0, b, h => by simp at h; subst h; simp [load]; omega
  | x :: l, i + 1, b, h => by
    have := load_erase e l i b (by simpa using h)
    simp only [load, List.eraseIdx_cons_succ, List.map_cons, List.sum_cons] at this ⊢
    omega

def sysLeft (s : St) : Nat := kLeft s.k + load 2 s.entered + load 3 s.pending

/-- Steps of anybody but the owner that are still to come if nothing more happens to files. -/
def potential (s : St) : Nat := wLeft s.w + sysLeft s

theorem sys_step {s s' : St} {a : Act} (hs : step true d s a = some s') (hn : ∀ b, a ≠ .notify b) (hc : closesItself a = false) :
    sysLeft s' + (if isOwner a || isWorker a then 0 else 1) ≤ sysLeft s := by
  cases a with
  | w =>
    simp only [step, wStep] at hs
    split at hs <;> (try unfold closeStep at hs) <;> (repeat' split at hs) <;> simp at hs <;> (try subst hs) <;> grind [sysLeft, isOwner, isWorker]
  | k =>
    have few := recvOne_few s.ctx
    simp only [step, kStep] at hs
    split at hs
    · rename_i hk; injection hs with hs; subst hs; simp [sysLeft, isOwner, isWorker, hk, kLeft]; omega
    · rename_i n ns hk; injection hs with hs; subst hs; have := few n; simp [sysLeft, isOwner, isWorker, hk, kLeft]; omega
    · rename_i hk; injection hs with hs; subst hs; simp [sysLeft, isOwner, isWorker, hk, kLeft]; omega
    · unfold closeStep at hs
      (repeat' split at hs) <;> simp at hs <;> (try subst hs) <;> grind [sysLeft, isOwner, isWorker, kLeft]
    · cases hs
  | o =>
    simp only [step, oStep] at hs
    split at hs <;> (try unfold closeStep at hs) <;> (repeat' split at hs) <;> simp at hs <;> (try subst hs) <;> grind [sysLeft, isOwner, isWorker]
  | notify b => exact absurd rfl (hn b)
  | enter =>
    simp only [step] at hs
    split at hs
    · cases hs
    · rename_i b rest hp
      split at hs
      · injection hs with hs; subst hs
        simp [sysLeft, isOwner, isWorker, hp, load]; omega
      · cases hs
  | tryLock i =>
    simp only [step] at hs
    split at hs
    · cases hs
    · rename_i b hb
      have he := load_erase 2 _ i b hb
      split at hs
      · injection hs with hs; subst hs; simp [sysLeft, isOwner, isWorker]; omega
      · split at hs
        · injection hs with hs; subst hs; simp [sysLeft, isOwner, isWorker]; omega
        · rename_i hl
          have hk : s.k = .free := by
            cases hk : s.k <;> simp [St.locked, hk] at hl ⊢
          injection hs with hs; subst hs; simp [sysLeft, isOwner, isWorker, hk, kLeft]; omega
  | cbClose => cases hc
  | kClose => cases hc
  | _ =>
    simp only [step] at hs
    (repeat' split at hs) <;> simp at hs <;> (try subst hs) <;> grind [sysLeft, isOwner, isWorker, kLeft]

theorem potential_step {s s' : St} {a : Act} (hs : step true d s a = some s') (hn : ∀ b, a ≠ .notify b) (hc : closesItself a = false) :
    potential s' + (if isOwner a then 0 else 1) ≤ potential s := by
  have h1 := wLeft_step hs (by rintro rfl; cases hc)
  have h2 := sys_step hs hn hc
  unfold potential
  cases a <;> simp [isOwner, isWorker] at h1 h2 ⊢ <;> omega

/-- Once the flag is set somebody can go on, as long as the worker is not done. -/
theorem goes_on {s : St} (hc : Ctl s) (hrel : s.is = .released) (hns : NobodyInside s) (hw : s.w ≠ .finished) :
    ∃ a s', step true d s a = some s' ∧ closesItself a = false ∧ (∀ b, a ≠ .notify b) ∧ (isOwner a = true → a = .o ∧ signalling s) := by
  by_cases hk : s.k = .free
  · cases hw' : s.w with
    | start => exact ⟨.w, _, by simp [step, wStep, hw']; rfl, rfl, by simp, by simp [isOwner]⟩
    | check => exact ⟨.w, _, by simp [step, wStep, hw']; rfl, rfl, by simp, by simp [isOwner]⟩
    | live pre => exact ⟨.w, _, by simp [step, wStep, hw']; rfl, rfl, by simp, by simp [isOwner]⟩
    | inLive pre => exact ⟨.cbReturn, _, by simp [step, hw']; rfl, rfl, by simp, by simp [isOwner]⟩
    | opening => exact ⟨.opened true, _, by simp [step, hw']; rfl, rfl, by simp, by simp [isOwner]⟩
    | ask => exact ⟨.w, _, by simp [step, wStep, hw']; rfl, rfl, by simp, by simp [isOwner]⟩
    | leave ok => exact ⟨.w, _, by simp [step, wStep, hw']; rfl, rfl, by simp, by simp [isOwner]⟩
    | die p q => exact ⟨.w, _, by simp [step, wStep, hw']; rfl, rfl, by simp, by simp [isOwner]⟩
    | inDie p q => exact ⟨.cbReturn, _, by simp [step, hw']; rfl, rfl, by simp, by simp [isOwner]⟩
    | setFut r => exact ⟨.w, _, by simp [step, wStep, hw']; rfl, rfl, by simp, by simp [isOwner]⟩
    | finished => exact absurd hw' hw
    | liveClose c p => exact absurd hw' (hns.1 c p)
    | dieClose c p q => exact absurd hw' (hns.2.1 c p q)
    | close ok =>
      cases hst : s.stream with
      | false => exact ⟨.w, _, by simp [step, wStep, hw', hst]; rfl, rfl, by simp, by simp [isOwner]⟩
      | true => exact ⟨.w, _, by simp [step, wStep, hw', hst, St.locked, hk]; rfl, rfl, by simp, by simp [isOwner]⟩
    | sleep =>
      by_cases hsg : s.signals = 0
      · have := hc.wake hrel (by simp [hw', before]) hsg
        have ho : s.o = .closing .signal ∨ s.o = .dtorClosing .signal := by
          rcases this with h | h | ⟨p, h⟩ | ⟨p, q, h⟩ | ⟨es, ns, h⟩
          · exact .inl h
          · exact .inr h
          · exact absurd h (hns.1 _ _)
          · exact absurd h (hns.2.1 _ _ _)
          · exact absurd h (hns.2.2 _ _ _)
        rcases ho with ho | ho
        · exact ⟨.o, _, by simp [step, oStep, ho, closeStep]; rfl, rfl, by simp, fun _ => ⟨rfl, this⟩⟩
        · exact ⟨.o, _, by simp [step, oStep, ho, closeStep]; rfl, rfl, by simp, fun _ => ⟨rfl, this⟩⟩
      · exact ⟨.w, _, by simp [step, wStep, hw', hsg]; rfl, rfl, by simp, by simp [isOwner]⟩
    | flush ok =>
      have hst := (hc.fl (by simp [hw', isFlush])).2
      cases hp : s.pending with
      | cons b rest => exact ⟨.enter, _, by simp [step, hp, hst]; rfl, rfl, by simp, by simp [isOwner]⟩
      | nil =>
        cases he : s.entered with
        | cons b rest =>
          have hl : s.left = false := by
            cases hl : s.left with
            | false => rfl
            | true => have := (hc.left hl).2.2; rw [hst] at this; cases this
          exact ⟨.tryLock 0, _, by simp [step, he, hl, St.locked, hw']; rfl, rfl, by simp, by simp [isOwner]⟩
        | nil => exact ⟨.w, _, by simp [step, wStep, hw', hp, he]; rfl, rfl, by simp, by simp [isOwner]⟩
  · cases hk' : s.k with
    | free => exact absurd hk' hk
    | selfClose c es ns => exact absurd hk' (hns.2.2 _ _ _)
    | inCb es ns => exact ⟨.kReturn, _, by simp [step, hk']; rfl, rfl, by simp, by simp [isOwner]⟩
    | handling es ns =>
      cases es with
      | cons e es => exact ⟨.k, _, by simp [step, kStep, hk']; rfl, rfl, by simp, by simp [isOwner]⟩
      | nil => cases ns with
        | nil => exact ⟨.k, _, by simp [step, kStep, hk']; rfl, rfl, by simp, by simp [isOwner]⟩
        | cons n ns => exact ⟨.k, _, by simp [step, kStep, hk']; rfl, rfl, by simp, by simp [isOwner]⟩

/-- Steps of a `close()` of the owner that are still to come. -/
def oLeft : OPc → Nat
  | .closing .cas => 4
  | .closing .signal => 3
  | .closing .valid => 2
  | .closing .get => 1
  | .dtorClosing .cas => 5
  | .dtorClosing .signal => 4
  | .dtorClosing .valid => 3
  | .dtorClosing .get => 2
  | .dtorFuture => 1
  | _ => 0

theorem oLeft_step {s s' : St} (hs : step true d s .o = some s') : oLeft s'.o + 1 ≤ oLeft s.o := by
  simp only [step, oStep] at hs
  split at hs <;> (try unfold closeStep at hs) <;> (repeat' split at hs) <;> simp at hs <;> (try subst hs) <;> grind [oLeft]

theorem oLeft_same {s s' : St} {a : Act} (hs : step true d s a = some s') (ha : isOwner a = false) : s'.o = s.o := by
  cases a with
  | w =>
    simp only [step, wStep] at hs
    split at hs <;> (try unfold closeStep at hs) <;> (repeat' split at hs) <;> simp at hs <;> (try subst hs) <;> grind
  | k =>
    simp only [step, kStep] at hs
    split at hs <;> (try unfold closeStep at hs) <;> (repeat' split at hs) <;> simp at hs <;> (try subst hs) <;> grind
  | o => cases ha
  | oClose => cases ha
  | oDtor => cases ha
  | _ =>
    simp only [step] at hs
    (repeat' split at hs) <;> simp at hs <;> (try subst hs) <;> rfl

theorem is_released {s s' : St} {a : Act} (hs : step true d s a = some s') (h : s.is = .released) : s'.is = .released := by
  cases a with
  | w =>
    simp only [step, wStep] at hs
    split at hs <;> (try unfold closeStep at hs) <;> (repeat' split at hs) <;> simp at hs <;> (try subst hs) <;> grind
  | k =>
    simp only [step, kStep] at hs
    split at hs <;> (try unfold closeStep at hs) <;> (repeat' split at hs) <;> simp at hs <;> (try subst hs) <;> grind
  | o =>
    simp only [step, oStep] at hs
    split at hs <;> (try unfold closeStep at hs) <;> (repeat' split at hs) <;> simp at hs <;> (try subst hs) <;> grind
  | _ =>
    simp only [step] at hs
    (repeat' split at hs) <;> simp at hs <;> (try subst hs) <;> exact h

theorem noSelf_step {s s' : St} {a : Act} (hs : step true d s a = some s') (h : NobodyInside s) (hc : closesItself a = false) : NobodyInside s' := by
  obtain ⟨h1, h2, h3⟩ := h
  cases a with
  | w =>
    simp only [step, wStep] at hs
    split at hs <;> (try unfold closeStep at hs) <;> (repeat' split at hs) <;> simp at hs <;> (try subst hs) <;> (refine ⟨?_, ?_, ?_⟩ <;> grind)
  | k =>
    simp only [step, kStep] at hs
    split at hs <;> (try unfold closeStep at hs) <;> (repeat' split at hs) <;> simp at hs <;> (try subst hs) <;> (refine ⟨?_, ?_, ?_⟩ <;> grind)
  | o =>
    simp only [step, oStep] at hs
    split at hs <;> (try unfold closeStep at hs) <;> (repeat' split at hs) <;> simp at hs <;> (try subst hs) <;> (refine ⟨?_, ?_, ?_⟩ <;> grind)
  | cbClose => cases hc
  | kClose => cases hc
  | _ =>
    simp only [step] at hs
    (repeat' split at hs) <;> simp at hs <;> (try subst hs) <;> (refine ⟨?_, ?_, ?_⟩ <;> grind)

/-- There is a way to the end. -/
theorem reach_end : ∀ (n : Nat) (s : St), potential s + oLeft s.o ≤ n → Ctl s → s.is = .released → NobodyInside s →
    ∃ acts s', run true d s acts = some s' ∧ s'.w = .finished ∧ (∀ a ∈ acts, closesItself a = false ∧ (∀ b, a ≠ .notify b) ∧ a ≠ .oClose ∧ a ≠ .oDtor) := by
  intro n
  induction n with
  | zero =>
    intro s hn hc hrel hns
    have : wLeft s.w = 0 := by unfold potential at hn; omega
    refine ⟨[], s, rfl, ?_, by simp⟩
    cases hw : s.w with
    | liveClose c p => exact absurd hw (hns.1 c p)
    | dieClose c p q => exact absurd hw (hns.2.1 c p q)
    | finished => rfl
    | _ => exact absurd this (by rw [hw]; simp [wLeft])
  | succ n ih =>
    intro s hn hc hrel hns
    by_cases hw : s.w = .finished
    · exact ⟨[], s, rfl, hw, by simp⟩
    · obtain ⟨a, s', hs, h1, h2, h3⟩ := goes_on (d := d) hc hrel hns hw
      have hp := potential_step hs h2 h1
      have hle : potential s' + oLeft s'.o ≤ n := by
        cases ha : isOwner a with
        | false => rw [oLeft_same hs ha]; rw [ha] at hp; simp at hp; omega
        | true =>
          obtain ⟨rfl, _⟩ := h3 ha
          have := oLeft_step hs
          simp [isOwner] at hp
          omega
      obtain ⟨acts, s'', k1, k2, k3⟩ := ih s' hle (ctl_step hc hs) (is_released hs hrel) (noSelf_step hs hns h1)
      refine ⟨a :: acts, s'', by simp [run, hs, k1], k2, ?_⟩
      intro x hx
      rcases List.mem_cons.1 hx with rfl | hx
      · refine ⟨h1, h2, ?_, ?_⟩
        · rintro rfl; exact absurd (h3 rfl).1 (by simp)
        · rintro rfl; exact absurd (h3 rfl).1 (by simp)
      · exact k3 x hx

end Verif.Lemmas.DLife
