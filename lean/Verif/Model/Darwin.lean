import Verif.Model.Result
import Verif.Model.Semabin
/-!
# The Darwin back end

Models `include/wtr/watcher.hpp` lines 490-811. Notifications of the system are the inputs. Not modelled:
CoreFoundation objects and their reference counts, the latency of the stream, null pointers inside the
path array, callbacks that throw.
-/

namespace Verif.Model.Darwin
open Verif Verif.Model

/-! Flags of `<CoreServices/FSEvents.h>`. -/
def ItemCreated : BitVec 32 := 0x100#32
def ItemRemoved : BitVec 32 := 0x200#32
def ItemInodeMetaMod : BitVec 32 := 0x400#32
def ItemRenamed : BitVec 32 := 0x800#32
def ItemModified : BitVec 32 := 0x1000#32
def ItemFinderInfoMod : BitVec 32 := 0x2000#32
def ItemChangeOwner : BitVec 32 := 0x4000#32
def ItemXattrMod : BitVec 32 := 0x8000#32
def ItemIsFile : BitVec 32 := 0x10000#32
def ItemIsDir : BitVec 32 := 0x20000#32
def ItemIsSymlink : BitVec 32 := 0x40000#32
def ItemIsHardlink : BitVec 32 := 0x100000#32
def ItemIsLastHardlink : BitVec 32 := 0x200000#32

/-! The flag groups, watcher.hpp:499-527. -/
def pathFile : BitVec 32 := ItemIsFile
def pathDir : BitVec 32 := ItemIsDir
def pathSymLink : BitVec 32 := ItemIsSymlink
def pathHardLink : BitVec 32 := ItemIsHardlink ||| ItemIsLastHardlink
def effectCreate : BitVec 32 := ItemCreated
def effectRemove : BitVec 32 := ItemRemoved
def effectModifyAny : BitVec 32 :=
  ItemModified ||| ItemChangeOwner ||| ItemXattrMod ||| ItemFinderInfoMod ||| ItemInodeMetaMod
def effectModify : BitVec 32 := effectModifyAny &&& ~~~ItemInodeMetaMod
def effectRename : BitVec 32 := ItemRenamed
def effectAny : BitVec 32 := effectCreate ||| effectRemove ||| effectModifyAny ||| effectRename

/-- One notification, and what `access(lr_path, F_OK) == -1` answers while it is handled
(watcher.hpp:607; asked only for rename notifications). -/
structure Note where
  path : Str
  flags : BitVec 32
  missing : Bool := false
deriving DecidableEq, Repr

/-- `ContextData`, watcher.hpp:531-540: the set of paths seen created, the last rename path, and the events
handed to the callback (oldest first). The mutex is in `Watch` below. -/
structure Ctx where
  seen : List Str := []
  last : Str := []
  out : List Ev := []
deriving DecidableEq, Repr

/-- `ctx.callback(ev)`. -/
def Ctx.send (c : Ctx) (e : Ev) : Ctx := { c with out := c.out ++ [e] }

/-- The path type, watcher.hpp:548-552. -/
def ptypeOf (flags : BitVec 32) : PathType :=
  if anyBit flags pathFile then .file
  else if anyBit flags pathDir then .dir
  else if anyBit flags pathSymLink then .symLink
  else if anyBit flags pathHardLink then .hardLink
  else .other

/-- The creation part, watcher.hpp:562-568. -/
def onCreate (c : Ctx) (path : Str) (flags : BitVec 32) (pt : PathType) : Ctx :=
  if anyBit flags effectCreate then
    if c.seen.contains path then c
    else ({ c with seen := path :: c.seen }).send { path := path, effect := .create, ptype := pt }
  else c

/-- The removal part, watcher.hpp:569-575. -/
def onRemove (c : Ctx) (path : Str) (flags : BitVec 32) (pt : PathType) : Ctx :=
  if anyBit flags effectRemove then
    if c.seen.contains path then
      ({ c with seen := c.seen.filter (· != path) }).send { path := path, effect := .destroy, ptype := pt }
    else c
  else c

/-- The modification part, watcher.hpp:576-578. -/
def onModify (c : Ctx) (path : Str) (flags : BitVec 32) (pt : PathType) : Ctx :=
  if anyBit flags effectModify then c.send { path := path, effect := .modify, ptype := pt } else c

/-- The rename part, watcher.hpp:579-616. -/
def onRename (c : Ctx) (path : Str) (flags : BitVec 32) (pt : PathType) (missing : Bool) : Ctx :=
  if anyBit flags effectRename then
    let differs := !c.last.isEmpty && !pathEq c.last path
    if differs && missing then
      let c' := c.send ⟨c.last, .rename, pt, some ⟨path, .rename, pt⟩⟩
      { c' with last := [] }
    else { c with last := path }
  else c

/-- `event_recv_one`, watcher.hpp:542-617. -/
def recvOne (c : Ctx) (n : Note) : Ctx :=
  let pt := ptypeOf n.flags
  if !anyBit n.flags effectAny then c.send { path := n.path, effect := .other, ptype := pt }
  else
    let c := onCreate c n.path n.flags pt
    let c := onRemove c n.path n.flags pt
    let c := onModify c n.path n.flags pt
    onRename c n.path n.flags pt n.missing

/-- The loop of `event_recv`, watcher.hpp:649-650. -/
def recvAll (c : Ctx) (ns : List Note) : Ctx := ns.foldl recvOne c

/-! ### Receiving and closing, with their mutex -/

/-- Where the watching thread is, watcher.hpp:798-811 and 774-785. -/
inductive WatchPc where
  | waiting                  -- `wait(living)`, 808
  | wantLock                 -- about to take the mutex, 778
  | flushing                 -- holds the mutex; `FSEventStreamFlushSync`, 779
  | closed                   -- stopped, released, mutex given back, 780-785
deriving DecidableEq, Repr

/-- The state shared between the system's threads and the watching thread. -/
structure Watch where
  ctx : Ctx := {}
  pending : List (List Note) := []     -- batches the system has not handed over yet
  running : Option (List Note) := none -- the batch being handled by the thread that holds the mutex
  pc : WatchPc := .waiting
  dropped : List (List Note) := []     -- batches `event_recv` returned from without handling them
  handled : List Note := []            -- notifications handled (a record nothing reads)
deriving DecidableEq, Repr

/-- Is the mutex taken? -/
def Watch.locked (w : Watch) : Bool := w.running.isSome || w.pc == .flushing

/-- What can happen. -/
inductive Act where
  | notify (b : List Note)   -- the system queues a batch (not after the stream was stopped)
  | deliver                  -- the system calls `event_recv` with the oldest batch
  | handle                   -- the thread in `event_recv` handles one notification, or gives the mutex back
  | release                  -- the owner has called `close()`: `wait` returns
  | lock                     -- the watching thread gets the mutex
  | stop                     -- flushing is over: the stream is stopped and the mutex given back
deriving DecidableEq, Repr

/-- One step; `none` when not possible. -/
def step (w : Watch) : Act → Option Watch
  | .notify b => if w.pc = .closed then none else some { w with pending := w.pending ++ [b] }
  -- 648: `if (! ctx.mtx->try_lock()) return;`
  | .deliver => match w.pending with
    | [] => none
    | b :: rest =>
      if w.pc = .closed then none
      else if w.locked then some { w with pending := rest, dropped := w.dropped ++ [b] }
      else some { w with pending := rest, running := some b }
  -- 649-651
  | .handle => match w.running with
    | none => none
    | some [] => some { w with running := none }
    | some (n :: ns) => some { w with ctx := recvOne w.ctx n, running := some ns, handled := w.handled ++ [n] }
  | .release => if w.pc = .waiting then some { w with pc := .wantLock } else none
  -- 778: blocks while a batch is handled
  | .lock => if w.pc = .wantLock ∧ w.locked = false then some { w with pc := .flushing } else none
  -- 779-785: `FSEventStreamFlushSync` returns when all batches were handed over
  | .stop => if w.pc = .flushing ∧ w.pending = [] then some { w with pc := .closed } else none

def run (w : Watch) : List Act → Option Watch
  | [] => some w
  | a :: as => match step w a with
    | none => none
    | some w' => run w' as

/-! ### Opening -/

/-- What `watch` does, watcher.hpp:798-811, in order; `opened` is whether `open_event_stream` answered a
stream (656-706). The answer is given only after the owner's release. -/
inductive Phase where
  | openStream | waitRelease | closeStream
deriving DecidableEq, Repr

/-- The phases of `watch` and the result. `wait` (708-714) answers the state found, or released after the
semaphore was signalled. -/
def watch (opened : Bool) (found : SemState) : List Phase × Bool :=
  let stateOk := (if found ≠ .pending then found else .released) == .released
  let closeOk := opened     -- 777: `if (! stream) return false;`
  ([.openStream, .waitRelease, .closeStream], stateOk && closeOk)

end Verif.Model.Darwin
