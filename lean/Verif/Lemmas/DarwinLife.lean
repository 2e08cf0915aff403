import Verif.Spec.DarwinLife
/-! Invariants of `Model/DarwinLife.lean`. -/
namespace Verif.Lemmas.DLife
open Verif Verif.Model Verif.Model.DLife Verif.Spec.DLife
open Verif.Model.Darwin (Note Ctx recvOne recvAll)

variable {d : Bool}

/-- The worker is in `adapter::watch` and the stream may be open. -/
def inWatch : WPc → Bool
  | .ask | .sleep | .close _ | .flush _ => true
  | _ => false

def isFlush : WPc → Bool
  | .flush _ => true
  | _ => false

/-- Places before the worker has seen the signal. -/
def before : WPc → Bool
  | .start | .check | .live _ | .inLive _ | .liveClose _ _ | .opening | .ask | .sleep => true
  | _ => false

/-- Somebody has set the flag and is about to signal. -/
def signalling (s : St) : Prop :=
  s.o = .closing .signal ∨ s.o = .dtorClosing .signal ∨ (∃ p, s.w = .liveClose .signal p) ∨ (∃ p q, s.w = .dieClose .signal p q) ∨
    ∃ es ns, s.k = .selfClose .signal es ns

/-- The worker's `close()` has set the flag. -/
def wPast : WPc → Bool
  | .liveClose c _ => c != .cas
  | .dieClose c _ _ => c != .cas
  | _ => false

def kPast : KPc → Bool
  | .selfClose c _ _ => c != .cas
  | _ => false

def oPast : OPc → Bool
  | .closing c => c != .cas
  | .dtorClosing c => c != .cas
  | .dtorFuture | .gone => true
  | _ => false

structure Ctl (s : St) : Prop where
  quiet : s.stream = false → s.k = .free ∧ s.pending = [] ∧ s.entered = []
  inw : s.stream = true → inWatch s.w = true
  fl : isFlush s.w = true → s.k = .free ∧ s.stream = true
  left : s.left = true → before s.w = false ∧ inWatch s.w = false ∧ s.stream = false
  ub : s.ub = false
  sig : s.is = .pending ∨ s.is = .released
  fin : s.fut.isSome = true ↔ s.w = .finished
  valid : s.valid = false → s.w = .finished
  vrel : s.valid = false → s.is = .released
  get : (s.o = .closing .get ∨ s.o = .dtorClosing .get) → s.valid = true
  wrel : wPast s.w = true → s.is = .released
  krel : kPast s.k = true → s.is = .released
  orel : oPast s.o = true → s.is = .released
  wake : s.is = .released → before s.w = true → s.signals = 0 → signalling s
  gone : s.o = .gone → s.w = .finished

theorem ctl_init : Ctl {} := by
  constructor <;> simp [isFlush, wPast, kPast, oPast]

theorem ctl_w {s s' : St} (h : Ctl s) (hs : wStep true d s = some s') : Ctl s' := by
  obtain ⟨h1,h2,h3,h4,h5,h6,h7,h8,h9,h10,h11,h12,h13,h14,h15⟩ := h
  unfold wStep at hs
  split at hs <;> (try unfold closeStep at hs) <;> (repeat' split at hs) <;> simp at hs <;> (try subst hs) <;>
   constructor <;> grind [inWatch, isFlush, before, signalling, wPast, kPast, oPast, St.locked]

theorem ctl_k {s s' : St} (h : Ctl s) (hs : kStep s = some s') : Ctl s' := by
  obtain ⟨h1,h2,h3,h4,h5,h6,h7,h8,h9,h10,h11,h12,h13,h14,h15⟩ := h
  unfold kStep at hs
  split at hs <;> (try unfold closeStep at hs) <;> (repeat' split at hs) <;> simp at hs <;> (try subst hs) <;>
   constructor <;> grind [inWatch, isFlush, before, signalling, wPast, kPast, oPast, St.locked]

theorem ctl_o {s s' : St} (h : Ctl s) (hs : oStep s = some s') : Ctl s' := by
  obtain ⟨h1,h2,h3,h4,h5,h6,h7,h8,h9,h10,h11,h12,h13,h14,h15⟩ := h
  unfold oStep at hs
  split at hs <;> (try unfold closeStep at hs) <;> (repeat' split at hs) <;> simp at hs <;> (try subst hs) <;>
   constructor <;> grind [inWatch, isFlush, before, signalling, wPast, kPast, oPast, St.locked]

theorem ctl_step {s s' : St} {a : Act} (h : Ctl s) (hs : step true d s a = some s') : Ctl s' := by
  cases a with
  | w => exact ctl_w h hs
  | k => exact ctl_k h hs
  | o => exact ctl_o h hs
  | tryLock i =>
    obtain ⟨h1,h2,h3,h4,h5,h6,h7,h8,h9,h10,h11,h12,h13,h14,h15⟩ := h
    simp only [step] at hs
    split at hs
    · cases hs
    · rename_i b hb
      have hne : s.entered ≠ [] := by intro e; rw [e] at hb; simp at hb
      have hst : s.stream = true := by
        cases hst : s.stream
        · exact absurd (h1 hst).2.2 hne
        · rfl
      (repeat' split at hs) <;> simp at hs <;> (try subst hs) <;>
      constructor <;> grind [inWatch, isFlush, before, signalling, wPast, kPast, oPast, St.locked]
  | _ =>
    obtain ⟨h1,h2,h3,h4,h5,h6,h7,h8,h9,h10,h11,h12,h13,h14,h15⟩ := h
    simp only [step] at hs
    (repeat' split at hs) <;> simp at hs <;> (try subst hs) <;>
    constructor <;> grind [inWatch, isFlush, before, signalling, wPast, kPast, oPast, St.locked]

/-! ### What was told -/

theorem callbacks_append (a b : List Obs) : callbacks (a ++ b) = callbacks a ++ callbacks b := by
  induction a with
  | nil => rfl
  | cons x a ih => cases x <;> simp [callbacks, ih]

@[grind =] theorem cbs_cb (a : List Obs) (m : Msg) : callbacks (a ++ [.cb m]) = callbacks a ++ [m] := by simp [callbacks_append, callbacks]
@[grind =] theorem cbs_ret (a : List Obs) : callbacks (a ++ [.cbRet]) = callbacks a := by simp [callbacks_append, callbacks]
@[grind =] theorem cbs_cc (a : List Obs) : callbacks (a ++ [.closeCall]) = callbacks a := by simp [callbacks_append, callbacks]
@[grind =] theorem cbs_cr (a : List Obs) (b : Bool) : callbacks (a ++ [.closeRet b]) = callbacks a := by simp [callbacks_append, callbacks]
@[grind =] theorem cbs_dc (a : List Obs) : callbacks (a ++ [.dtorCall]) = callbacks a := by simp [callbacks_append, callbacks]
@[grind =] theorem cbs_dr (a : List Obs) : callbacks (a ++ [.dtorRet]) = callbacks a := by simp [callbacks_append, callbacks]

def restK : KPc → List Note
  | .free => []
  | .handling _ ns => ns
  | .inCb _ ns => ns
  | .selfClose _ _ ns => ns

def esK : KPc → List Ev
  | .free => []
  | .handling es _ => es
  | .inCb es _ => es
  | .selfClose _ es _ => es

/-- What the callback has got, by where the worker is; `op`: what opening the stream was answered, `done`: the events
handed over. -/
def Story (d : Bool) (op : List Bool) (fut : Option Bool) (stream : Bool) (done : List Ev) (cbs : List Msg) : WPc → Prop
  | .start => cbs = [] ∧ op = []
  | .check => cbs = [] ∧ op = [] ∧ d = true
  | .live pre => cbs = [] ∧ op = [] ∧ (pre = true → d = true)
  | .inLive pre => cbs = [.live pre] ∧ op = [] ∧ (pre = true → d = true)
  | .liveClose _ pre => cbs = [.live pre] ∧ op = [] ∧ (pre = true → d = true)
  | .opening => cbs = [.live true] ∧ op = [] ∧ d = true
  | .ask => cbs = .live true :: done.map .ev ∧ op = [stream] ∧ d = true
  | .sleep => cbs = .live true :: done.map .ev ∧ op = [stream] ∧ d = true
  | .close ok => cbs = .live true :: done.map .ev ∧ op = [stream] ∧ d = true ∧ ok = true
  | .flush ok => cbs = .live true :: done.map .ev ∧ op = [true] ∧ d = true ∧ ok = true
  | .leave ok => cbs = .live true :: done.map .ev ∧ op = [ok] ∧ d = true
  | .die pre post => (pre = false ∧ post = false ∧ cbs = [.live false] ∧ op = []) ∨
      (pre = true ∧ cbs = .live true :: done.map .ev ∧ op = [post] ∧ d = true)
  | .inDie pre post => (pre = false ∧ post = false ∧ cbs = [.live false, .die false] ∧ op = []) ∨
      (pre = true ∧ cbs = .live true :: done.map .ev ++ [.die post] ∧ op = [post] ∧ d = true)
  | .dieClose _ pre post => (pre = false ∧ post = false ∧ cbs = [.live false, .die false] ∧ op = []) ∨
      (pre = true ∧ cbs = .live true :: done.map .ev ++ [.die post] ∧ op = [post] ∧ d = true)
  | .setFut r => (r = false ∧ cbs = [.live false, .die false] ∧ op = []) ∨
      (cbs = .live true :: done.map .ev ++ [.die r] ∧ op = [r] ∧ d = true)
  | .finished => ∃ r, fut = some r ∧ ((r = false ∧ cbs = [.live false, .die false] ∧ op = []) ∨
      (cbs = .live true :: done.map .ev ++ [.die r] ∧ op = [r] ∧ d = true))

structure Tell (d : Bool) (acts : List Act) (s : St) (done : List Ev) (handled : List Note) : Prop where
  notes : handled ++ restK s.k = s.taken.flatten
  ctx : recvAll {} handled = { s.ctx with out := done ++ esK s.k }
  none : opens acts = [] → done = [] ∧ handled = [] ∧ s.taken = []
  story : Story d (opens acts) s.fut s.stream done (callbacks s.log) s.w

theorem opens_append (a b : List Act) : opens (a ++ b) = opens a ++ opens b := by
  induction a with
  | nil => rfl
  | cons x a ih => cases x <;> simp [opens, ih]

theorem tell_w {s s' : St} {acts : List Act} {done : List Ev} {handled : List Note} (hc : Ctl s) (h : Tell d acts s done handled) (hs : wStep true d s = some s') :
    Tell d (acts ++ [.w]) s' done handled := by
  have ho : opens (acts ++ [.w]) = opens acts := by simp [opens_append, opens]
  obtain ⟨h1,h2,h3,h4⟩ := h
  unfold wStep at hs
  split at hs <;> (try unfold closeStep at hs) <;> (repeat' split at hs) <;> simp at hs <;> (try subst hs) <;>
   constructor <;> grind [Story, hc.sig, hc.fin, hc.valid, hc.quiet, hc.inw, hc.fl, hc.left]

end Verif.Lemmas.DLife
