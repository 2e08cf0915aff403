import Verif.Model.Inotify
/-!
# The fanotify back end: reading a batch

Models `include/wtr/watcher.hpp` lines 1007-1276. The receive buffer is modelled byte by byte with its full
4096 bytes, so that bytes left over from earlier reads are visible to code that looks too far; looking
beyond the buffer is the outcome `ub`. Pointers into the buffer are offsets. System calls are functions of
an abstract world `σ` which every call may change.
-/

namespace Verif.Model.Fa
open Verif Verif.Model

/-! Constants of `<sys/fanotify.h>`. -/
def FAN_MODIFY : BitVec 64 := 0x2#64
def FAN_MOVED_FROM : BitVec 64 := 0x40#64
def FAN_MOVED_TO : BitVec 64 := 0x80#64
def FAN_MOVE : BitVec 64 := FAN_MOVED_FROM ||| FAN_MOVED_TO
def FAN_CREATE : BitVec 64 := 0x100#64
def FAN_DELETE : BitVec 64 := 0x200#64
def FAN_Q_OVERFLOW : BitVec 64 := 0x4000#64
def FAN_ONDIR : BitVec 64 := 0x40000000#64

/-- `sizeof(fanotify_event_metadata)`, also `FAN_EVENT_METADATA_LEN`. -/
def mtdLen : Nat := 24
/-- `FANOTIFY_METADATA_VERSION`. -/
def version : UInt8 := 3
/-- `FAN_EVENT_INFO_TYPE_DFID_NAME`. -/
def infoDfidName : UInt8 := 2
/-- `ke_fa_ev::buf_len`, watcher.hpp:1021. -/
def bufLen : Nat := 4096
/-- `ke_fa_ev::c_ulim`, watcher.hpp:1022. -/
def cUlim : Nat := bufLen / mtdLen
/-- `PATH_MAX`. -/
def pathMax : Nat := 4096

/-- The system calls made at watcher.hpp:1063-1065 (`mark` tells whether `fanotify_mark` returned 0),
1136 (`openByHandle`: the descriptor, and `errno` afterwards) and 1143 (`readlink`: none is -1).
`rightFirst` is the order in which the compiler evaluates the two arguments at watcher.hpp:1199, which C++
leaves open. -/
structure Sys (σ : Type) where
  realpath : σ → Str → Option Str × σ
  isDir : σ → Str → Bool × σ
  mark : σ → Str → Bool × σ
  openByHandle : σ → List UInt8 → (Int × Nat) × σ
  readlink : σ → Int → Option Str × σ
  rightFirst : Bool

/-- What the code can change: the buffer, the world, and the events handed to the callback (oldest first,
each with the world at that moment). -/
structure St (σ : Type) where
  buf : List UInt8
  sys : σ
  out : List (Ev × σ) := []

/-- `cb(ev)`. -/
def St.send {σ} (st : St σ) (e : Ev) : St σ := { st with out := st.out ++ [(e, st.sys)] }

/-- `do_mark`, watcher.hpp:1057-1070. -/
def doMark {σ} (S : Sys σ) (dirpath : Str) (st : St σ) : St σ × Result :=
  match S.realpath st.sys dirpath with
  | (none, w) => (({ st with sys := w }).send (sendMsg .wNotWatched dirpath), .wNotWatched)
  | (some real, w) =>
    match S.isDir w real with
    | (false, w) => (({ st with sys := w }).send (sendMsg .wNotWatched dirpath), .wNotWatched)
    | (true, w) =>
      match S.mark w real with
      | (true, w) => ({ st with sys := w }, .complete)
      | (false, w) => (({ st with sys := w }).send (sendMsg .wNotWatched dirpath), .wNotWatched)

/-- One byte of the buffer. -/
def u8 (buf : List UInt8) (o : Nat) : Outcome UInt8 :=
  match buf.drop o with
  | a :: _ => .ok a
  | [] => .ub "byte beyond the buffer"

/-- A 32-bit little-endian field. -/
def u32 (buf : List UInt8) (o : Nat) : Outcome (BitVec 32) :=
  match buf.drop o with
  | a :: b :: c :: d :: _ =>
    .ok (BitVec.ofNat 32 (a.toNat + 256 * (b.toNat + 256 * (c.toNat + 256 * d.toNat))))
  | _ => .ub "field beyond the buffer"

/-! Fields of `fanotify_event_metadata` (offsets 0, 4, 8, 16) and of the information record behind it
(`hdr.info_type` at 24, `handle_bytes` at 36, `f_handle` at 44). -/
def fLen (buf : List UInt8) (o : Nat) : Outcome Nat := do let x ← u32 buf o; pure x.toNat
def fVers (buf : List UInt8) (o : Nat) : Outcome UInt8 := u8 buf (o + 4)
def fMask (buf : List UInt8) (o : Nat) : Outcome (BitVec 64) := do
  let lo ← u32 buf (o + 8)
  let hi ← u32 buf (o + 12)
  pure (BitVec.ofNat 64 (lo.toNat + 4294967296 * hi.toNat))
def fFd (buf : List UInt8) (o : Nat) : Outcome Int := do let x ← u32 buf (o + 16); pure x.toInt
def fInfoType (buf : List UInt8) (o : Nat) : Outcome UInt8 := u8 buf (o + 24)
def fHandleBytes (buf : List UInt8) (o : Nat) : Outcome Nat := do let x ← u32 buf (o + 36); pure x.toNat

/-- `FAN_EVENT_OK(meta, len)` of `<sys/fanotify.h>`: the length is looked at only when `len` is at least
the size of the metadata. -/
def eventOk (buf : List UInt8) (o : Nat) (len : Int) : Outcome Bool :=
  if len < 24 then .ok false
  else do let el ← fLen buf o; pure (decide (24 ≤ el) && decide ((el : Int) ≤ len))

/-- `pathof`, watcher.hpp:1126-1157. `ec` is the caller's variable. The handle passed to the kernel is its
`handle_bytes` bytes (the kernel checks them, not the process). `readlink` is given a buffer of
`PATH_MAX - 1` bytes. Simplification: the path of a directory contains no zero byte. -/
def pathof {σ} (S : Sys σ) (buf : List UInt8) (o : Nat) (ec : Nat) (w : σ) : Outcome (Str × Nat × σ) := do
  let hb ← fHandleBytes buf o
  let ((fd, errno), w) := S.openByHandle w ((buf.drop (o + 44)).take hb)
  if fd ≤ 0 then pure ([], errno, w)
  else
    match S.readlink w fd with
    | (none, _) => .ub "path_buf[-1] is written"
    | (some s, w) =>
      let dir := s.take (pathMax - 1)
      if 0 < dir.length then do
        let name ← In.cstr (buf.drop (o + 44 + hb))
        -- `snprintf(beg, PATH_MAX - file_name_offset, "/%s", file_name)`
        if name ≠ b!"." then pure (dir ++ (b!"/" ++ name).take (pathMax - dir.length - 1), ec, w)
        else pure (dir, ec, w)
      else pure (dir, ec, w)

/-- `peek`, watcher.hpp:1159-1169 (its argument is never null where it is called). -/
def peek (buf : List UInt8) (o : Nat) (readLen : Int) : Outcome (Option Nat) := do
  let el ← fLen buf o
  let ok ← eventOk buf (o + el) (readLen - el)
  pure (if ok then some (o + el) else none)

/-- The effect of a mask, watcher.hpp:1186-1190. -/
def effectOf (mask : BitVec 64) : EffectType :=
  if anyBit mask FAN_CREATE then .create
  else if anyBit mask FAN_DELETE then .destroy
  else if anyBit mask FAN_MODIFY then .modify
  else if anyBit mask FAN_MOVE then .rename
  else .other

/-- The path type of a mask, watcher.hpp:1185. -/
def ptypeOf (mask : BitVec 64) : PathType := if anyBit mask FAN_ONDIR then .dir else .file

/-- `isfromto`, watcher.hpp:1191-1192. Its parameters are `unsigned`: the upper half of a mask is cut off,
which does not matter for the two bits looked at. -/
def isFromTo (et : EffectType) (a b : BitVec 64) : Bool :=
  decide (et = .rename) && anyBit a FAN_MOVED_FROM && anyBit b FAN_MOVED_TO

/-- `struct Parsed`, watcher.hpp:1171-1175. -/
structure Parsed where
  ev : Ev
  next : Option Nat
  len : Nat

/-- `one` of `parse_ev`, watcher.hpp:1193-1194. -/
def parseOne {σ} (S : Sys σ) (buf : List UInt8) (m : Nat) (et : EffectType) (pt : PathType) (n : Option Nat) (ec : Nat) (w : σ) :
    Outcome (Parsed × Nat × σ) := do
  let (p, ec, w) ← pathof S buf m ec w
  let len ← fLen buf m
  pure (⟨⟨p, et, pt, none⟩, n, len⟩, ec, w)

/-- The two calls of `pathof` at watcher.hpp:1199. -/
def pathof2 {σ} (S : Sys σ) (buf : List UInt8) (a b : Nat) (ec : Nat) (w : σ) : Outcome (Str × Str × Nat × σ) :=
  if S.rightFirst then do
    let (pb, ec, w) ← pathof S buf b ec w
    let (pa, ec, w) ← pathof S buf a ec w
    pure (pa, pb, ec, w)
  else do
    let (pa, ec, w) ← pathof S buf a ec w
    let (pb, ec, w) ← pathof S buf b ec w
    pure (pa, pb, ec, w)

/-- `assoc` of `parse_ev`, watcher.hpp:1195-1201. -/
def parseAssoc {σ} (S : Sys σ) (buf : List UInt8) (a b : Nat) (et : EffectType) (pt : PathType) (readLen : Int) (ec : Nat) (w : σ) :
    Outcome (Parsed × Nat × σ) := do
  let nn ← peek buf b readLen
  let la ← fLen buf a
  let lb ← fLen buf b
  let (pa, pb, ec, w) ← pathof2 S buf a b ec w
  pure (⟨⟨pa, et, pt, some ⟨pb, et, pt⟩⟩, nn, la + lb⟩, ec, w)

/-- `parse_ev`, watcher.hpp:1177-1206; also gives back `ec` and the world. -/
def parseEv {σ} (S : Sys σ) (buf : List UInt8) (m : Nat) (readLen : Int) (ec : Nat) (w : σ) :
    Outcome (Parsed × Nat × σ) := do
  let n ← peek buf m readLen
  let mask ← fMask buf m
  let pt := ptypeOf mask
  let et := effectOf mask
  match n with
  | none => parseOne S buf m et pt n ec w
  | some b => do
    let nmask ← fMask buf b
    if isFromTo et mask nmask then parseAssoc S buf m b et pt readLen ec w
    else if isFromTo et nmask mask then parseAssoc S buf b m et pt readLen ec w
    else parseOne S buf m et pt n ec w

/-- `do_mark_if_newdir`, watcher.hpp:1208-1217. -/
def doMarkIfNewdir {σ} (S : Sys σ) (ev : Ev) (st : St σ) : St σ :=
  if ev.effect = .create ∧ ev.ptype = .dir then (doMark S ev.path st).1 else st

/-- The `while` loop, watcher.hpp:1254-1274. `left` is `c_ulim + 1 - read_ev_count`: the test
`read_ev_count++ > c_ulim` is true exactly when `left` is 0. `len` is `read_len`. -/
def loop {σ} (S : Sys σ) : (left : Nat) → Option Nat → Int → St σ → Outcome (St σ × Result)
  | _, none, _, st => .ok (st, .pending)
  | left, some o, len, st => do
    let ok ← eventOk st.buf o len
    if !ok then pure (st, .pending)
    else match left with
    | 0 => pure (st, .eRet)
    | left + 1 =>
      let vers ← fVers st.buf o
      if vers ≠ version then pure (st, .eKernelVersion)
      else
        let fd ← fFd st.buf o
        if fd ≠ -1 then pure (st, .wBadFd)
        else
          let mask ← fMask st.buf o
          if anyBit mask FAN_Q_OVERFLOW then pure (st, .wQOverflow)
          else
            let it ← fInfoType st.buf o
            if it ≠ infoDfidName then pure (st, .wBadMeta)
            else
              let (p, ec, w) ← parseEv S st.buf o len 0 st.sys
              if ec ≠ 0 then pure ({ st with sys := w }, .wBadFd)
              else loop S left p.next (len - p.len) ((doMarkIfNewdir S p.ev { st with sys := w }).send p.ev)

/-- `do_ev_recv`, watcher.hpp:1240-1276. `read` overwrites the beginning of the buffer. -/
def doEvRecv {σ} (S : Sys σ) (r : In.ReadAns) (st : St σ) : Outcome (St σ × Result) :=
  match r with
  | .err false => .ok (st, .pending)
  | .err true => .ok (st, .eRead)
  | .data mem => loop S (cUlim + 1) (some 0) mem.length { st with buf := mem ++ st.buf.drop mem.length }

end Verif.Model.Fa
