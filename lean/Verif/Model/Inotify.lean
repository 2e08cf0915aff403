import Verif.Model.Result
import Verif.Model.Path
/-!
# The inotify back end: reading a batch

Models `include/wtr/watcher.hpp` lines 1299-1636. The buffer is modelled byte by byte; pointers into it
are offsets. Reading a byte the kernel did not write is the outcome `ub`. System calls whose answers
depend on the file system are functions of an abstract state `σ`, which every call may change (so other
processes can act between any two calls).
-/

namespace Verif.Model.In
open Verif Verif.Model

/-! Constants of `<sys/inotify.h>`. -/
def IN_MODIFY : BitVec 32 := 0x2#32
def IN_MOVED_FROM : BitVec 32 := 0x40#32
def IN_MOVED_TO : BitVec 32 := 0x80#32
def IN_MOVE : BitVec 32 := IN_MOVED_FROM ||| IN_MOVED_TO
def IN_CREATE : BitVec 32 := 0x100#32
def IN_DELETE : BitVec 32 := 0x200#32
def IN_DELETE_SELF : BitVec 32 := 0x400#32
def IN_MOVE_SELF : BitVec 32 := 0x800#32
def IN_Q_OVERFLOW : BitVec 32 := 0x4000#32
def IN_IGNORED : BitVec 32 := 0x8000#32
def IN_ISDIR : BitVec 32 := 0x40000000#32

/-- `sizeof(inotify_event)`: four 32-bit fields, then the name. -/
def hdrLen : Nat := 16
/-- `ke_in_ev::buf_len`, watcher.hpp:1326. -/
def bufLen : Nat := 4096
/-- `ke_in_ev::c_ulim`, watcher.hpp:1335. -/
def cUlim : Nat := bufLen / hdrLen
/-- `ke_in_ev::recv_mask`, watcher.hpp:1359-1366. -/
def recvMask : BitVec 32 :=
  IN_CREATE ||| IN_DELETE ||| IN_DELETE_SELF ||| IN_MODIFY ||| IN_MOVE_SELF ||| IN_MOVED_FROM ||| IN_MOVED_TO

/-- The watch table `ke_in_ev::dm` (an `unordered_map<int, path>`), watcher.hpp:1369-1370; only
`find`, `emplace`, `erase` and `empty` are used, so the order does not matter. -/
abbrev Table := List (Int × Str)

/-- `dm.find(wd)`. -/
def Table.find (t : Table) (wd : Int) : Option Str := t.lookup wd
/-- `dm.emplace(wd, path)`: does nothing when the key is present. -/
def Table.emplace (t : Table) (wd : Int) (p : Str) : Table :=
  match t.find wd with
  | some _ => t
  | none => (wd, p) :: t
/-- `dm.erase(dm.find(wd))`, if present. -/
def Table.erase (t : Table) (wd : Int) : Table := t.filter (fun e => e.1 != wd)

/-- The system calls `do_mark` makes (watcher.hpp:1391-1393, 941-945). -/
structure Sys (σ : Type) where
  realpath : σ → Str → Option Str × σ
  isDir : σ → Str → Bool × σ
  addWatch : σ → Str → Int × σ

/-- What the code can change: the table, the deferred removals (`rm_wd_buf` up to `back_idx`), the
world, and the events handed to the callback (oldest first). -/
structure St (σ : Type) where
  dm : Table
  rm : List Int := []
  sys : σ
  out : List Ev := []

/-- `cb(ev)`. -/
def St.send {σ} (st : St σ) (e : Ev) : St σ := { st with out := st.out ++ [e] }

/-- `do_mark`, watcher.hpp:1386-1398. -/
def doMark {σ} (S : Sys σ) (dirpath : Str) (st : St σ) : St σ × Result :=
  match S.realpath st.sys dirpath with
  | (none, w) => (({ st with sys := w }).send (sendMsg .wNotWatched dirpath), .wNotWatched)
  | (some real, w) =>
    match S.isDir w real with
    | (false, w) => (({ st with sys := w }).send (sendMsg .wNotWatched dirpath), .wNotWatched)
    | (true, w) =>
      match S.addWatch w real with
      | (wd, w) =>
        if wd > 0 then ({ st with sys := w, dm := st.dm.emplace wd real }, .complete)
        else (({ st with sys := w }).send (sendMsg .wNotWatched dirpath), .wNotWatched)

/-- `make_dm`, watcher.hpp:1413-1420: mark every directory of the walk (`Model/Walk.lean` has the walk
itself). Without `-e` results of an earlier step. -/
def makeDm {σ} (S : Sys σ) (dirs : List Str) (st : St σ) : St σ × Result :=
  let st := dirs.foldl (fun st d => (doMark S d st).1) { st with dm := [] }
  (st, if st.dm.isEmpty then .eNoent else .pending)

/-! ### Reading the buffer. `mem` is what `read()` wrote; its length is `read_len`. -/

/-- A 32-bit little-endian field at offset `o`. -/
def u32 (mem : List UInt8) (o : Nat) : Outcome (BitVec 32) :=
  match mem.drop o with
  | a :: b :: c :: d :: _ =>
    .ok (BitVec.ofNat 32 (a.toNat + 256 * (b.toNat + 256 * (c.toNat + 256 * d.toNat))))
  | _ => .ub "field beyond the bytes read"

/-- `->wd` (signed). -/
def fWd (mem : List UInt8) (o : Nat) : Outcome Int := do let x ← u32 mem o; pure x.toInt
/-- `->mask`. -/
def fMask (mem : List UInt8) (o : Nat) : Outcome (BitVec 32) := u32 mem (o + 4)
/-- `->cookie`. -/
def fCookie (mem : List UInt8) (o : Nat) : Outcome (BitVec 32) := u32 mem (o + 8)
/-- `->len`. -/
def fLen (mem : List UInt8) (o : Nat) : Outcome Nat := do let x ← u32 mem (o + 12); pure x.toNat

/-- A zero-terminated string. -/
def cstr : List UInt8 → Outcome Str
  | [] => .ub "unterminated name"
  | c :: cs => if c = 0 then .ok [] else (cstr cs).bind (fun s => .ok (c :: s))

/-- `->name`, read as a C string. -/
def fName (mem : List UInt8) (o : Nat) : Outcome Str := cstr (mem.drop (o + hdrLen))

/-- `peek`, watcher.hpp:1445-1452 (its argument is never null where it is called). -/
def peek (mem : List UInt8) (o : Nat) (tail : Nat) : Outcome (Option Nat) := do
  let len ← fLen mem o
  let next := o + hdrLen + len
  pure (if next < tail then some next else none)

/-- The effect of a mask, watcher.hpp:1470-1474. -/
def effectOf (mask : BitVec 32) : EffectType :=
  if anyBit mask IN_CREATE then .create
  else if anyBit mask IN_DELETE then .destroy
  else if anyBit mask IN_MOVE then .rename
  else if anyBit mask IN_MODIFY then .modify
  else .other

/-- The path type of a mask, watcher.hpp:1469. -/
def ptypeOf (mask : BitVec 32) : PathType := if anyBit mask IN_ISDIR then .dir else .file

/-- `isfromto`, watcher.hpp:1477-1478. -/
def isFromTo (a b : BitVec 32) : Bool := anyBit a IN_MOVED_FROM && anyBit b IN_MOVED_TO

/-- `parse_ev`, watcher.hpp:1459-1488: the event and the next record. -/
def parseEv (mem : List UInt8) (dirname : Str) (o : Nat) (tail : Nat) : Outcome (Ev × Option Nat) := do
  let mask ← fMask mem o
  let pt := ptypeOf mask
  let et := effectOf mask
  let next ← peek mem o tail
  -- `one`: 1479-1480
  let one : Outcome (Ev × Option Nat) := do
    let n ← fName mem o
    pure ({ path := pathJoin dirname n, effect := et, ptype := pt }, next)
  -- `assoc`: 1481-1482
  let assoc (a b : Nat) : Outcome (Ev × Option Nat) := do
    let na ← fName mem a
    let nb ← fName mem b
    let nn ← peek mem b tail
    pure ({ path := pathJoin dirname na, effect := et, ptype := pt,
            assoc := some { path := pathJoin dirname nb, effect := et, ptype := pt } }, nn)
  match next with
  | none => one
  | some b => do
    let cb ← fCookie mem b
    let ca ← fCookie mem o
    -- `isassoc`: 1475-1476
    if cb ≠ 0#32 ∧ cb = ca ∧ et = .rename then do
      let mb ← fMask mem b
      if isFromTo mask mb then assoc o b
      else if isFromTo mb mask then assoc b o
      else one
    else one

/-- `is_parity_lost`, watcher.hpp:1594-1595. -/
def isParityLost (m : BitVec 32) : Bool := anyBit m IN_DELETE_SELF && !anyBit m IN_MOVE_SELF

/-- `is_real_event`, watcher.hpp:1596-1601. -/
def isRealEvent (m : BitVec 32) : Bool :=
  anyBit m recvMask && !anyBit m (IN_IGNORED ||| IN_DELETE_SELF ||| IN_MOVE_SELF)

/-- The `while` loop, watcher.hpp:1611-1631. `left` is `c_ulim + 1 - in_ev_c`: the test
`in_ev_c++ > c_ulim` is true exactly when `left` is 0. -/
def loop {σ} (S : Sys σ) (mem : List UInt8) : (left : Nat) → Option Nat → St σ → Outcome (St σ × Result)
  | _, none, st => .ok (st, .pending)
  | left, some o, st =>
    if o < mem.length then do
      let next ← peek mem o mem.length
      let msk ← fMask mem o
      let wd ← fWd mem o
      match left with
      | 0 => pure (st, .eRet)
      | left + 1 =>
        -- 1617: the deferred removal; refused when `rm_wd_buf` is full
        if isParityLost msk && !decide (st.rm.length < bufLen) then pure (st, .eRet)
        else
          let hit := st.dm.find wd
          let st := if isParityLost msk then { st with rm := st.rm ++ [wd] } else st
          match hit with
          | none => loop S mem left next (st.send (sendMsg .wPhantom []))
          | some dir =>
            if anyBit msk IN_Q_OVERFLOW then
              loop S mem left next (st.send (sendMsg .wQOverflow dir))
            else if isRealEvent msk then do
              let (ev, next) ← parseEv mem dir o mem.length
              let st := if anyBit msk IN_ISDIR && anyBit msk IN_CREATE
                then (doMark S ev.path st).1 else st
              loop S mem left next (st.send ev)
            else loop S mem left next st
    else .ok (st, .pending)

/-- The destructor of `defer_dm_rm_wd`, watcher.hpp:1510-1517: runs when the batch is left. -/
def flushRm {σ} (st : St σ) : St σ := { st with dm := st.rm.foldl Table.erase st.dm, rm := [] }

/-- What `read()` answers: an error (is it `EAGAIN`?) or bytes. -/
inductive ReadAns where
  | err (eagain : Bool)
  | data (bytes : List UInt8)
deriving DecidableEq, Repr

/-- `do_ev_recv`, watcher.hpp:1592-1634. With `EAGAIN` the tail lies before the buffer, so the loop is
not entered. -/
def doEvRecv {σ} (S : Sys σ) (r : ReadAns) (st : St σ) : Outcome (St σ × Result) :=
  match r with
  | .err false => .ok (st, .eRead)
  | .err true => .ok (st, .pending)
  | .data mem => do
    let (st, r) ← loop S mem (cUlim + 1) (some 0) { st with rm := [] }
    pure (flushRm st, r)

end Verif.Model.In
