import Verif.Model.Event
/-!
# The Windows back end

Models `include/wtr/watcher.hpp` lines 1729-1970. The system calls' answers are inputs. Not modelled:
allocation failures (the functions are `noexcept`), time stamps, the security and overlapped structures,
`event_token`'s state (nothing waits for it).
-/

namespace Verif.Model.Windows
open Verif Verif.Model

/-- A wide string: UTF-16 code units. -/
abbrev WStr := List UInt16

/-- An event with a wide path. The associated event has the same shape without a further one. -/
structure WEv where
  path : WStr
  effect : EffectType
  ptype : PathType
  assoc : Option (WStr × PathType) := none     -- its effect is always `rename`
deriving DecidableEq, Repr

/-! ### Opening -/

/-- `memcpy(path_name, path.c_str(), path.string().size())`, watcher.hpp:1764: copies as many bytes as the
path has in the narrow code page (`narrow`) from its wide form (`wide` units and a terminator, two bytes each)
into the 256 wide characters of `path_name` (1753). -/
def copyPath (wide narrow : Nat) : Outcome Unit :=
  if narrow > 2 * 256 then .ub "write past path_name"
  else if narrow > 2 * (wide + 1) then .ub "read past the path"
  else .ok ()

/-- The handles of a `watch_event_proxy`, watcher.hpp:1754-1756. -/
inductive Handle where
  | path | completion | event
deriving DecidableEq, Repr

/-- Answers of the four calls of the constructor, watcher.hpp:1756-1782: was the handle made? -/
structure OpenAnswers where
  event : Bool         -- CreateEventW, 1756
  path : Bool          -- CreateFileW, 1765 (a failure is `INVALID_HANDLE_VALUE`, which is not null)
  completion : Bool    -- CreateIoCompletionPort, 1775
  attach : Bool        -- CreateIoCompletionPort, 1777-1781: refuses an invalid path handle
  reset : Bool         -- ResetEvent, 1782
deriving DecidableEq, Repr

/-- The handles made by the constructor and `is_valid` afterwards, watcher.hpp:1761-1783. -/
def construct (a : OpenAnswers) : List Handle × Bool :=
  ((if a.event then [.event] else []) ++ (if a.path then [.path] else []) ++ (if a.completion then [.completion] else []),
   if a.completion then (a.path && a.attach) && a.reset else true)

/-- The handles closed by the destructor, watcher.hpp:1785-1789. -/
def destruct (hs : List Handle) : List Handle := hs.filter (fun h => h == .event || h == .completion)

/-! ### A batch, from its bytes -/

/-- A 32-bit little endian number. Reading outside the array is undefined behaviour. -/
def rd32 (m : List UInt8) (o : Nat) : Option Nat :=
  match m[o]?, m[o+1]?, m[o+2]?, m[o+3]? with
  | some a, some b, some c, some d => some (a.toNat + 256 * b.toNat + 65536 * c.toNat + 16777216 * d.toNat)
  | _, _, _, _ => none

/-- `n` wide characters. -/
def rdName (m : List UInt8) (o : Nat) : Nat → Option WStr
  | 0 => some []
  | n + 1 =>
    match m[o]?, m[o+1]?, rdName m (o + 2) n with
    | some a, some b, some r => some (UInt16.ofNat (a.toNat + 256 * b.toNat) :: r)
    | _, _, _ => none

/-- `w.path / name`, watcher.hpp:1883-1884. Simplification: the name is relative and has no drive, as the names
of notifications are; the watched path has no trailing colon alone unless it is a drive. -/
def join (base name : WStr) : WStr :=
  match base.getLast? with
  | none => name
  | some c => if c = 92 ∨ c = 47 ∨ (c = 58 ∧ base.length = 2) then base ++ name else base ++ [92] ++ name

/-- The effect of an action, watcher.hpp:1886-1896. -/
def effectOf (action : Nat) : EffectType :=
  if action = 3 then .modify
  else if action = 1 then .create
  else if action = 2 then .destroy
  else if action = 4 then .rename
  else if action = 5 then .rename
  else .other

/-- The type of a path, watcher.hpp:1898-1907; `isDir` is what `std::filesystem::is_directory` answers,
`none` when it throws. -/
def ptypeOf (isDir : WStr → Option Bool) (p : WStr) : PathType :=
  match isDir p with
  | some true => .dir
  | some false => .file
  | none => .other

/-- The two trackers, watcher.hpp:1848-1863. -/
structure Trackers where
  old : Option (WStr × PathType) := none
  new : Option (WStr × PathType) := none
deriving DecidableEq, Repr

/-- One record, watcher.hpp:1909-1925 with 1864-1878: the trackers and the events sent. -/
def onRecord (isDir : WStr → Option Bool) (base : WStr) (t : Trackers) (action : Nat) (name : WStr) :
    Trackers × List WEv :=
  let p := join base name
  let pt := ptypeOf isDir p
  if action = 4 then
    match t.new with
    | some (q, qt) => ({}, [⟨p, .rename, pt, some (q, qt)⟩])
    | none => ({ t with old := some (p, pt) }, [])
  else if action = 5 then
    match t.old with
    | some (q, qt) => ({}, [⟨q, .rename, qt, some (p, pt)⟩])
    | none => ({ t with new := some (p, pt) }, [])
  else (t, [⟨p, effectOf action, pt, none⟩])

/-- The loop of `do_event_send`, watcher.hpp:1881-1931, from offset `off`. `none`: not finished after `fuel`
turns. The loop's condition compares `buf + 16` with `buf + event_buf_len_ready`, so it does not depend on
`buf`; the pointers' difference is taken to be exact. -/
def sendLoop (isDir : WStr → Option Bool) (base : WStr) (m : List UInt8) (ready : Nat) :
    Nat → Nat → Trackers → List WEv → Option (Outcome (List WEv))
  | 0, _, _, _ => none
  | fuel + 1, off, t, out =>
    if 16 ≤ ready then
      match rd32 m off, rd32 m (off + 4), rd32 m (off + 8) with
      | some next, some action, some len =>
        if len % 2 = 0 then
          match rdName m (off + 12) (len / 2) with
          | none => some (.ub "read past the buffer")
          | some name =>
            let (t', evs) := onRecord isDir base t action name
            if next = 0 then some (.ok (out ++ evs))
            else sendLoop isDir base m ready fuel (off + next) t' (out ++ evs)
        else sendLoop isDir base m ready fuel off t out
      | _, _, _ => some (.ub "read past the buffer")
    else some (.ok out)

/-- `do_event_send` on a valid proxy, watcher.hpp:1842-1933. -/
def sendBatch (isDir : WStr → Option Bool) (base : WStr) (m : List UInt8) (ready fuel : Nat) :
    Option (Outcome (List WEv)) := sendLoop isDir base m ready fuel 0 {} []

/-! ### Watching -/

/-- What was handed to the callback: the events of a batch, or a message about the watcher. -/
inductive Said where
  | ev (e : WEv)
  | readPending            -- "e/sys/read/pending", 1827
  | readFailed             -- "e/sys/read", 1833
deriving DecidableEq, Repr

/-- The answer of `ReadDirectoryChangesW`, watcher.hpp:1805-1820, with what it put in the buffer at once
(normally nothing): the bytes ready and the events of a batch with them. -/
inductive ReadAnswer where
  | ok (ready : Nat) (evs : List WEv)
  | pendingError
  | otherError
deriving DecidableEq, Repr

/-- The parts of the proxy that matter to watching: `is_valid`, `event_buf_len_ready`, the events the buffer
holds (see `sendBatch`), whether the system holds a read that is not completed, and what was said. -/
structure Win where
  valid : Bool := true
  ready : Nat := 0
  evs : List WEv := []
  armed : Bool := false
  said : List Said := []
deriving DecidableEq, Repr

/-- `do_event_recv`, watcher.hpp:1797-1840. -/
def recv (w : Win) (a : ReadAnswer) : Win :=
  let w := { w with ready := 0 }
  if w.valid then
    match a with
    | .ok n evs => { w with ready := n, evs := evs, armed := true }
    | .pendingError => { w with valid := false, said := w.said ++ [.readPending] }
    | .otherError => { w with said := w.said ++ [.readFailed] }
  else w

/-- `do_event_send`, watcher.hpp:1842-1933 (the events of the buffer: `sendBatch`). -/
def send (w : Win) : Win := if w.valid then { w with said := w.said ++ w.evs.map .ev } else w

/-- The loop at 1961-1964, with the answers of the reads. `none`: more answers are needed. -/
def pump (w : Win) : List ReadAnswer → Option Win
  | [] => if w.valid && w.ready != 0 then none else some w
  | a :: as => if w.valid && w.ready != 0 then pump (recv (send w) a) as else some w

/-- The loop at 1950, which only sends; `none` when not finished after `fuel` turns. -/
def firstLoop (w : Win) : Nat → Option Win
  | 0 => none
  | fuel + 1 => if w.valid && w.ready != 0 then firstLoop (send w) fuel else some w

/-- What `GetQueuedCompletionStatus` answers, watcher.hpp:1954-1960: nothing in time; a read that has failed (it
answers false and gives the `OVERLAPPED`, so the loop at 1961 is not entered); or a completed read with its number of
bytes and the events of its batch. -/
inductive Completion where
  | nothing
  | failed
  | done (ready : Nat) (evs : List WEv) (reads : List ReadAnswer)
deriving DecidableEq, Repr

/-- One turn of the loop at 1951-1966. A read can complete only if one is outstanding. -/
def turn (w : Win) : Completion → Option Win
  | .nothing => some w
  | .failed => if w.armed then some { w with armed := false } else none
  | .done n evs reads =>
    if w.armed then pump { w with armed := false, ready := n, evs := evs } reads else none

/-- Any number of turns. -/
def turns (w : Win) : List Completion → Option Win
  | [] => some w
  | c :: cs => match turn w c with
    | none => none
    | some w' => turns w' cs

/-- `watch` up to the loop, watcher.hpp:1947-1949. -/
def start (a : ReadAnswer) : Win := recv {} a

end Verif.Model.Windows
