import Verif.Model.Fanotify
/-!
# Effect times on Linux

The two Linux back ends once more, with the clock: `effect_time` is read from the system's clock when an `event` object is
constructed (`include/wtr/watcher.hpp` lines 96-98), which is not when the callback gets it. The functions below follow
`Model/Inotify.lean` and `Model/Fanotify.lean` line by line and add the readings; `Lemmas/Times.lean` proves that they do the same
otherwise. `clk n` is the `n`-th reading by the watching thread. A copy of an event keeps its time (102-109).
-/

namespace Verif.Model.Time
open Verif Verif.Model

/-- A back end's memory, the number of the next reading, and the event objects handed over (oldest first). -/
structure T (α : Type) where
  st : α
  tick : Nat := 0
  out : List Event := []

/-- `send_msg` (917-923) and the messages of `class watch` (2258-2270): constructed in the call of the callback. -/
def T.msg {α} (clk : Nat → Int) (t : T α) (e : Ev) : T α :=
  { t with tick := t.tick + 1, out := t.out ++ [e.stamp (clk t.tick) (clk t.tick)] }

/-- The event object of `parse_ev`, constructed when the `n`-th reading is next, and the number of the following reading:
one reading, or two for the halves (in the order the compiler likes) and one for the pair (119-123). -/
def construct (clk : Nat → Int) (rightFirst : Bool) (n : Nat) (e : Ev) : Event × Nat :=
  match e.assoc with
  | none => (e.stamp (clk n) (clk n), n + 1)
  | some _ => (e.stamp (clk (n + 2)) (if rightFirst then clk n else clk (n + 1)), n + 3)

/-- `do_mark` of inotify, watcher.hpp:1386-1398: the warning, if there is one, is made at the end. -/
def inMark {σ} (S : In.Sys σ) (clk : Nat → Int) (d : Str) (t : T (In.St σ)) : T (In.St σ) :=
  let t' := { t with st := (In.doMark S d t.st).1 }
  if (In.doMark S d t.st).2 = .wNotWatched then t'.msg clk (sendMsg .wNotWatched d) else t'

/-- The `while` loop of inotify, watcher.hpp:1611-1631, see `In.loop`. -/
def inLoop {σ} (S : In.Sys σ) (clk : Nat → Int) (rf : Bool) (mem : List UInt8) :
    (left : Nat) → Option Nat → T (In.St σ) → Outcome (T (In.St σ) × Result)
  | _, none, t => .ok (t, .pending)
  | left, some o, t =>
    if o < mem.length then do
      let next ← In.peek mem o mem.length
      let msk ← In.fMask mem o
      let wd ← In.fWd mem o
      match left with
      | 0 => pure (t, .eRet)
      | left + 1 =>
        if In.isParityLost msk && !decide (t.st.rm.length < In.bufLen) then pure (t, .eRet)
        else
          let hit := t.st.dm.find wd
          let t := if In.isParityLost msk then { t with st := { t.st with rm := t.st.rm ++ [wd] } } else t
          match hit with
          | none =>
            inLoop S clk rf mem left next (({ t with st := t.st.send (sendMsg .wPhantom []) }).msg clk (sendMsg .wPhantom []))
          | some dir =>
            if anyBit msk In.IN_Q_OVERFLOW then
              inLoop S clk rf mem left next (({ t with st := t.st.send (sendMsg .wQOverflow dir) }).msg clk (sendMsg .wQOverflow dir))
            else if In.isRealEvent msk then do
              -- 1624: the event is constructed
              let (ev, next) ← In.parseEv mem dir o mem.length
              let (obj, n) := construct clk rf t.tick ev
              let t := { t with tick := n }
              -- 1625-1626: the directory is marked
              let t := if anyBit msk In.IN_ISDIR && anyBit msk In.IN_CREATE then inMark S clk ev.path t else t
              -- 1627: the callback gets the event
              inLoop S clk rf mem left next { t with st := t.st.send ev, out := t.out ++ [obj] }
            else inLoop S clk rf mem left next t
    else .ok (t, .pending)

/-- `do_ev_recv` of inotify, watcher.hpp:1592-1634. -/
def inRecv {σ} (S : In.Sys σ) (clk : Nat → Int) (rf : Bool) (r : In.ReadAns) (t : T (In.St σ)) : Outcome (T (In.St σ) × Result) :=
  match r with
  | .err false => .ok (t, .eRead)
  | .err true => .ok (t, .pending)
  | .data mem => do
    let (t, r) ← inLoop S clk rf mem (In.cUlim + 1) (some 0) { t with st := { t.st with rm := [] } }
    pure ({ t with st := In.flushRm t.st }, r)

/-- `do_mark` of fanotify, watcher.hpp:1057-1070. -/
def faMark {σ} (S : Fa.Sys σ) (clk : Nat → Int) (d : Str) (t : T (Fa.St σ)) : T (Fa.St σ) :=
  let t' := { t with st := (Fa.doMark S d t.st).1 }
  if (Fa.doMark S d t.st).2 = .wNotWatched then t'.msg clk (sendMsg .wNotWatched d) else t'

/-- `do_mark_if_newdir`, watcher.hpp:1208-1217. -/
def faMarkIfNewdir {σ} (S : Fa.Sys σ) (clk : Nat → Int) (ev : Ev) (t : T (Fa.St σ)) : T (Fa.St σ) :=
  if ev.effect = .create ∧ ev.ptype = .dir then faMark S clk ev.path t else t

/-- The `while` loop of fanotify, watcher.hpp:1254-1274, see `Fa.loop`. -/
def faLoop {σ} (S : Fa.Sys σ) (clk : Nat → Int) : (left : Nat) → Option Nat → Int → T (Fa.St σ) → Outcome (T (Fa.St σ) × Result)
  | _, none, _, t => .ok (t, .pending)
  | left, some o, len, t => do
    let ok ← Fa.eventOk t.st.buf o len
    if !ok then pure (t, .pending)
    else match left with
    | 0 => pure (t, .eRet)
    | left + 1 =>
      let vers ← Fa.fVers t.st.buf o
      if vers ≠ Fa.version then pure (t, .eKernelVersion)
      else
        let fd ← Fa.fFd t.st.buf o
        if fd ≠ -1 then pure (t, .wBadFd)
        else
          let mask ← Fa.fMask t.st.buf o
          if anyBit mask Fa.FAN_Q_OVERFLOW then pure (t, .wQOverflow)
          else
            let it ← Fa.fInfoType t.st.buf o
            if it ≠ Fa.infoDfidName then pure (t, .wBadMeta)
            else
              -- 1268: the event is constructed
              let (p, ec, w) ← Fa.parseEv S t.st.buf o len 0 t.st.sys
              let (obj, n) := construct clk S.rightFirst t.tick p.ev
              let t := { t with st := { t.st with sys := w }, tick := n }
              if ec ≠ 0 then pure (t, .wBadFd)
              else
                -- 1270-1271
                let t := faMarkIfNewdir S clk p.ev t
                faLoop S clk left p.next (len - p.len) { t with st := t.st.send p.ev, out := t.out ++ [obj] }

/-- `do_ev_recv` of fanotify, watcher.hpp:1240-1276. -/
def faRecv {σ} (S : Fa.Sys σ) (clk : Nat → Int) (r : In.ReadAns) (t : T (Fa.St σ)) : Outcome (T (Fa.St σ) × Result) :=
  match r with
  | .err false => .ok (t, .pending)
  | .err true => .ok (t, .eRead)
  | .data mem => faLoop S clk (Fa.cUlim + 1) (some 0) mem.length { t with st := { t.st with buf := mem ++ t.st.buf.drop mem.length } }

/-- What the watching thread does that gives events: the messages of `class watch` and of the adapter (2258-2270, 1721), the marks of
`make_sysres` (1057-1070 and 1386-1398, one for each directory), the reads of the loop (1669-1675), in any number and order. The file system
may change between any two of them. -/
inductive Deed (σ : Type) where
  | msg (e : Ev)
  | mark (d : Str)
  | read (r : In.ReadAns)
  | world (w : σ)

/-- One of them, with inotify. -/
def inDeed {σ} (S : In.Sys σ) (clk : Nat → Int) (rf : Bool) (t : T (In.St σ)) : Deed σ → Outcome (T (In.St σ))
  | .msg e => .ok (t.msg clk e)
  | .mark d => .ok (inMark S clk d t)
  | .read r => do let (t, _) ← inRecv S clk rf r t; pure t
  | .world w => .ok { t with st := { t.st with sys := w } }

/-- All of them. -/
def inDeeds {σ} (S : In.Sys σ) (clk : Nat → Int) (rf : Bool) : List (Deed σ) → T (In.St σ) → Outcome (T (In.St σ))
  | [], t => .ok t
  | d :: ds, t => do let t ← inDeed S clk rf t d; inDeeds S clk rf ds t

/-- One of them, with fanotify. -/
def faDeed {σ} (S : Fa.Sys σ) (clk : Nat → Int) (t : T (Fa.St σ)) : Deed σ → Outcome (T (Fa.St σ))
  | .msg e => .ok (t.msg clk e)
  | .mark d => .ok (faMark S clk d t)
  | .read r => do let (t, _) ← faRecv S clk r t; pure t
  | .world w => .ok { t with st := { t.st with sys := w } }

/-- All of them. -/
def faDeeds {σ} (S : Fa.Sys σ) (clk : Nat → Int) : List (Deed σ) → T (Fa.St σ) → Outcome (T (Fa.St σ))
  | [], t => .ok t
  | d :: ds, t => do let t ← faDeed S clk t d; faDeeds S clk ds t

end Verif.Model.Time
