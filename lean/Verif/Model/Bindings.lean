import Verif.Model.Text
/-!
# The C interface and the Rust, Python and Node.js bindings

Models `watcher-c/src/watcher-c.cpp`, `watcher-rs/src/lib.rs`, `watcher-py/watcher/watcher.py`,
`watcher-nodejs/lib/watcher-napi.cpp` and `watcher-nodejs/lib/watcher.ts`.
-/

namespace Verif.Model.Bind
open Verif Verif.Model

/-! ### Events -/

/-- What a reader of a `char const*` sees of a string: up to the first zero byte. -/
def cRead (s : Str) : Str := s.takeWhile (· ≠ 0)

/-- `struct wtr_watcher_event`, watcher-c.h:48-54. The strings are what a C reader sees; `assoc` is `none`
for a null pointer. -/
structure CEvent where
  time : Int
  path : Str
  assoc : Option Str
  effect : Int
  ptype : Int
deriving DecidableEq, Repr

/-- The wrapped callback on POSIX systems, watcher-c.cpp:41-65: `ev_view`. -/
def cView (ev : Event) : CEvent where
  time := ev.time
  path := cRead ev.path
  assoc := ev.assoc.map (fun a => cRead a.path)
  effect := (ev.effect.toNat : Int)
  ptype := (ev.ptype.toNat : Int)

/-- `utf16_to_utf8`, watcher-c.cpp:22-33, with a buffer of `len` bytes. `text` is the UTF-8 encoding of the
path, without its end mark; `WideCharToMultiByte` counts the end mark and answers 0 when the buffer is too
small. `none`: the answer is -1. Simplification: the encoding itself is the library's. -/
def utf16ToUtf8 (len : Nat) (text : Str) : Outcome (Option Str) :=
  let wrote := if text.length + 1 ≤ len then text.length + 1 else 0
  if wrote = 0 then .ok none
  else if wrote < len then .ok (some text)          -- 30: `utf8_buf[wrote] = 0`
  else .ub "utf8_buf[wrote] lies behind the buffer"

/-- `PATH_BUF_LEN`, watcher-c.cpp:7. -/
def pathBufLen : Nat := 4096

/-- The wrapped callback on Windows, watcher-c.cpp:41-65; the paths of `ev` are their UTF-8 encodings.
`none`: the callback of the user is not called. -/
def cViewWin (ev : Event) : Outcome (Option CEvent) := do
  match ← utf16ToUtf8 pathBufLen ev.path with
  | none => pure none
  | some p =>
    let view (a : Option Str) : CEvent :=
      { time := ev.time, path := cRead p, assoc := a.map cRead, effect := (ev.effect.toNat : Int), ptype := (ev.ptype.toNat : Int) }
    match ev.assoc with
    | none => pure (some (view none))
    | some a =>
      match ← utf16ToUtf8 pathBufLen a.path with
      | none => pure none
      | some q => pure (some (view (some q)))

/-- The variants of `enum EffectType`, lib.rs:24-31, and their names for serde (`snake_case`). -/
inductive RsEffect where
  | Rename | Modify | Create | Destroy | Owner | Other
deriving DecidableEq, Repr
/-- The variants of `enum PathType`, lib.rs:36-43. -/
inductive RsPath where
  | Dir | File | HardLink | SymLink | Watcher | Other
deriving DecidableEq, Repr

/-- `effect_type_from_c`, lib.rs:67-78; the constants are those of watcher-c.h:11-16. -/
def rsEffect (c : Int) : RsEffect :=
  if c = 0 then .Rename else if c = 1 then .Modify else if c = 2 then .Create
  else if c = 3 then .Destroy else if c = 4 then .Owner else if c = 5 then .Other else .Other

/-- `path_type_from_c`, lib.rs:80-91; the constants are those of watcher-c.h:19-24. -/
def rsPath (c : Int) : RsPath :=
  if c = 0 then .Dir else if c = 1 then .File else if c = 2 then .HardLink
  else if c = 3 then .SymLink else if c = 4 then .Watcher else if c = 5 then .Other else .Other

/-- `rename_all = "snake_case"` of lib.rs:23. -/
def RsEffect.serde : RsEffect → Str
  | .Rename => b!"rename" | .Modify => b!"modify" | .Create => b!"create"
  | .Destroy => b!"destroy" | .Owner => b!"owner" | .Other => b!"other"
/-- `rename_all = "snake_case"` of lib.rs:35. -/
def RsPath.serde : RsPath → Str
  | .Dir => b!"dir" | .File => b!"file" | .HardLink => b!"hard_link"
  | .SymLink => b!"sym_link" | .Watcher => b!"watcher" | .Other => b!"other"

/-- `struct Event`, lib.rs:48-54. -/
structure RsEvent where
  time : Int
  path : Str
  assoc : Option Str
  effect : RsEffect
  ptype : RsPath
deriving DecidableEq, Repr

/-- `c_chars_as_str` of a pointer that is not null, lib.rs:60-62: text that is not UTF-8 becomes the empty
string. `utf8` is `str::from_utf8(..).is_ok()`. -/
def rsStr (utf8 : Str → Bool) (s : Str) : Str := if utf8 s then s else []

/-- `ev_from_c`, lib.rs:93-101. -/
def rsEvent (utf8 : Str → Bool) (c : CEvent) : RsEvent :=
  ⟨c.time, rsStr utf8 c.path, c.assoc.map (rsStr utf8), rsEffect c.effect, rsPath c.ptype⟩

/-- Members of the Python enumerations in order of their values, watcher.py:88-93 and 112-119. -/
def pyEffects : List Str := [b!"rename", b!"modify", b!"create", b!"destroy", b!"owner", b!"other"]
/-- watcher.py:104-109 and 121-128. -/
def pyPaths : List Str := [b!"dir", b!"file", b!"hard_link", b!"sym_link", b!"watcher", b!"other"]

/-- Looking up a value in an enumeration (`EffectType(v)`): raises when there is none. -/
def byCode (names : List Str) (c : Int) : Option Str := if c < 0 then none else names[c.toNat]?

/-- `class Event`, watcher.py:132-141; enumeration members are represented by their names in `_ET_TO_S` and
`_PT_TO_S`. -/
structure PyEvent where
  time : Int
  path : Str
  assoc : Option Str
  effect : Str
  ptype : Str
deriving DecidableEq, Repr

/-- `_as_utf8` of bytes, watcher.py:69-70: raises when the bytes are not UTF-8. -/
def pyDecode (utf8 : Str → Bool) (s : Str) : Option Str := if utf8 s then some s else none

/-- `_as_utf8(..) or None`, watcher.py:63-64 and 77: no pointer and the empty string both give `None`. The
outer `none` is a raised error. -/
def pyAssoc (utf8 : Str → Bool) : Option Str → Option (Option Str)
  | none => some none
  | some s => (pyDecode utf8 s).map (fun t => if t = [] then none else some t)

/-- `_c_event_to_event`, watcher.py:74-80, called by `callback_bridge`, watcher.py:172-174. `none`: an
error is raised inside the callback; `ctypes` prints it and the event is not delivered. -/
def pyEvent (utf8 : Str → Bool) (c : CEvent) : Option PyEvent := do
  let p ← pyDecode utf8 c.path
  let a ← pyAssoc utf8 c.assoc
  let e ← byCode pyEffects c.effect
  let t ← byCode pyPaths c.ptype
  pure ⟨c.time, p, a, e, t⟩

/-- `Event.to_json`, watcher.py:143-150: text is put between quotes as it is. -/
def pyJson (ev : PyEvent) : Str :=
  let apn := match ev.assoc with
    | none => b!"null"
    | some a => if a = [] then b!"null" else b!"\"" ++ a ++ b!"\""
  b!"{\"effect_time\":" ++ toChars ev.time ++ b!",\"path_name\":\"" ++ ev.path
    ++ b!"\",\"associated_path_name\":" ++ apn ++ b!",\"effect_type\":\"" ++ ev.effect
    ++ b!"\",\"path_type\":\"" ++ ev.ptype ++ b!"\"}"

/-- `Object.keys(EffectType)`, watcher.ts:13-20. -/
def tsEffects : List Str := [b!"rename", b!"modify", b!"create", b!"destroy", b!"owner", b!"other"]
/-- `Object.keys(PathType)`, watcher.ts:4-11. -/
def tsPaths : List Str := [b!"dir", b!"file", b!"hardLink", b!"symLink", b!"watcher", b!"other"]

/-- The nearest double of a natural number below 2^1024, ties to the even significand (IEEE 754
`convertFromInt`), as an integer: such a double is one. -/
def natToDouble (n : Nat) : Nat :=
  let k := n.log2 + 1 - 53
  let q := n / 2 ^ k
  let r := n % 2 ^ k
  2 ^ k * (if 2 * r < 2 ^ k then q else if 2 ^ k < 2 * r then q + 1 else if q % 2 = 0 then q else q + 1)

/-- `napi_create_int64`, watcher-napi.cpp:34: a JavaScript number is a double. -/
def toDouble (n : Int) : Int := if n < 0 then -(natToDouble n.natAbs : Int) else natToDouble n.natAbs

/-- `interface Event`, watcher.ts:22-28. `none` for a name is `undefined`. -/
structure JsEvent where
  time : Int
  path : Str
  assoc : Option Str
  effect : Option Str
  ptype : Option Str
deriving DecidableEq, Repr

/-- `event_to_js_obj`, watcher-napi.cpp:25-49, then `typedCb`, watcher.ts:39-48. `text` is what
`napi_create_string_utf8` makes of bytes (seen as UTF-8 again). -/
def jsEvent (text : Str → Str) (c : CEvent) : JsEvent :=
  ⟨toDouble c.time, text c.path, c.assoc.map text, byCode tsEffects c.effect, byCode tsPaths c.ptype⟩

/-! ### The path given to `watch` -/

/-- `wtr_watcher_open(path, ..)`, watcher-c.cpp:36-66: `watch(path)` makes a path of a C string. -/
def cOpenPath (s : Str) : Str := cRead s

/-- `CString::new(path).unwrap()`, lib.rs:118. `none`: panics. -/
def rsOpenPath (s : Str) : Option Str := if s.contains 0 then none else some (cOpenPath s)

/-- `path.encode("utf-8")` handed to a `c_char_p`, watcher.py:177-179 (`s` is the encoded text). -/
def pyOpenPath (s : Str) : Str := cOpenPath s

/-- A byte that continues a UTF-8 character. -/
def isCont (c : UInt8) : Bool := 128 ≤ c && c < 192

/-- The longest beginning of `s` with at most `n` bytes that does not end inside a character. -/
def cutChars (s : Str) : Nat → Str
  | 0 => []
  | n + 1 => if s.length ≤ n + 1 then s
    else match s[n + 1]? with
      | some c => if isCont c then cutChars s n else s.take (n + 1)
      | none => s

/-- `napi_get_value_string_utf8(.., path, 4096, ..)`, watcher-napi.cpp:136-139 and 158: at most 4095 bytes,
whole characters. -/
def nodeOpenPath (s : Str) : Str := cOpenPath (cutChars s 4095)

/-! ### Handles -/

/-- A `watch` object behind a C handle. `fresh r`: its thread runs and the first `close()` whose stop
signal can be written will answer `r`; `spent`: its thread has ended and its result was taken; `freed`:
deleted. (What `close()` answers is the subject of `Model/Lifecycle.lean`.) -/
inductive Obj where
  | fresh (r : Bool)
  | spent
  | freed
deriving DecidableEq, Repr

/-- `watch::close()` on an object, watcher.hpp:2275-2279. `relErr`: writing the stop signal fails (then
nothing else happens, and `close()` may be tried again). -/
def objClose (relErr : Bool) : Obj → Outcome (Bool × Obj)
  | .fresh r => .ok (if relErr then (false, .fresh r) else (r, .spent))
  | .spent => .ok (false, .spent)
  | .freed => .ub "close() on a deleted watch"

/-- `wtr_watcher_close` of a handle that is not null, watcher-c.cpp:69-75. -/
def cCloseObj (relErr : Bool) (o : Obj) : Outcome (Bool × Obj) := do
  let (ok, o) ← objClose relErr o
  if !ok then pure (false, o)
  else pure (true, .freed)      -- 73: `delete`

/-- All objects ever made; a handle is `none` (null) or an index. -/
abbrev Heap := List Obj

/-- `wtr_watcher_open`, watcher-c.cpp:66: `new` never answers null. -/
def cOpen (r : Bool) (h : Heap) : Option Nat × Heap := (some h.length, h ++ [.fresh r])

/-- `wtr_watcher_close`, watcher-c.cpp:69-75. -/
def cClose (relErr : Bool) (h : Heap) : Option Nat → Outcome (Bool × Heap)
  | none => .ok (false, h)
  | some i => match h[i]? with
    | none => .ub "not a handle"
    | some o => do
      let (b, o) ← cCloseObj relErr o
      pure (b, h.set i o)

/-- What can happen to a Rust `Watch` (lib.rs:116-149): `close()`; leaving scope; the watcher's thread
calls `fwd_ev`. -/
inductive RsOp where
  | close (relErr : Bool)
  | drop (relErr : Bool)
  | event
deriving DecidableEq, Repr

/-- A binding's watch: the object, and whether the context its callback uses was freed. -/
structure Held where
  obj : Obj
  ctxFreed : Bool := false
deriving DecidableEq, Repr

/-- The watcher's thread delivers an event if it still runs: the callback reads its context (`tx`,
lib.rs:105; `w`, watcher-napi.cpp:74; the closure of `_c_callback`, watcher.py:178). -/
def deliver (s : Held) : Outcome Held :=
  match s.obj with
  | .fresh _ => if s.ctxFreed then .ub "callback on a freed context" else .ok s
  | _ => .ok s

/-- One step of a Rust `Watch`. `close`: lib.rs:129-134. `drop`: lib.rs:145-149, then the fields are
dropped. -/
def rsStep (s : Held) : RsOp → Outcome Held
  | .close relErr => do let (_, o) ← cCloseObj relErr s.obj; pure { s with obj := o }
  | .drop relErr => do let (_, o) ← cCloseObj relErr s.obj; pure { obj := o, ctxFreed := true }
  | .event => deliver s

def rsRun (s : Held) : List RsOp → Outcome Held
  | [] => .ok s
  | op :: ops => do let s ← rsStep s op; rsRun s ops

/-- What can happen to a Python `Watch`: `close`, `__exit__`, `__deinit__`, `__del__` (all of them call
`close`, watcher.py:192-202), and events. -/
inductive PyOp where
  | close (relErr : Bool) | exit (relErr : Bool) | deinit (relErr : Bool) | del (relErr : Bool)
  | event
deriving DecidableEq, Repr

/-- A Python `Watch`: its attribute `_watcher` (`none`: not set because `__init__` raised; `some false`:
`None`; `some true`: the handle), the C object and its callback object, how often the C function was
called, and whether an `AttributeError` was raised. -/
structure PyWatch where
  attr : Option Bool
  held : Held
  calls : Nat := 0
  raised : Bool := false
deriving DecidableEq, Repr

/-- `Watch.close`, watcher.py:183-190. -/
def pyClose (s : PyWatch) (relErr : Bool) : Outcome PyWatch :=
  match s.attr with
  | none => .ok { s with raised := true }
  | some false => .ok s
  | some true => do
    let (_, o) ← cCloseObj relErr s.held.obj
    pure { s with attr := some false, held := { s.held with obj := o }, calls := s.calls + 1 }

/-- One step. After `__del__` the object and its `_c_callback` are gone. -/
def pyStep (s : PyWatch) : PyOp → Outcome PyWatch
  | .close e | .exit e | .deinit e => pyClose s e
  | .del e => do let s ← pyClose s e; pure { s with held := { s.held with ctxFreed := true } }
  | .event => do let h ← deliver s.held; pure { s with held := h }

def pyRun (s : PyWatch) : List PyOp → Outcome PyWatch
  | [] => .ok s
  | op :: ops => do let s ← pyStep s op; pyRun s ops

/-- What can happen to a TypeScript watch: `close()`, and events (the C callback, watcher-napi.cpp:72-88). -/
inductive TsOp where
  | close (relErr : Bool)
  | event
deriving DecidableEq, Repr

/-- A TypeScript watch (watcher.ts:38-61): are `watcher` and `typedCb` set; the C object and
`watcher_lifetime`; how often the C function was called; what the `close()`s answered. -/
structure TsWatch where
  live : Bool
  held : Held
  calls : Nat := 0
  answers : List Bool := []
deriving DecidableEq, Repr

/-- `close`, watcher-napi.cpp:92-119: the C close, then everything is released whatever it answered. -/
def napiClose (relErr : Bool) (h : Held) : Outcome (Bool × Held) :=
  if h.ctxFreed then .ub "w was freed"
  else do
    let (ok, o) ← cCloseObj relErr h.obj
    pure (ok, { obj := o, ctxFreed := true })

/-- `close`, watcher.ts:51-59. -/
def tsStep (s : TsWatch) : TsOp → Outcome TsWatch
  | .close relErr =>
    if !s.live then .ok { s with answers := s.answers ++ [false] }
    else do
      let (ok, h) ← napiClose relErr s.held
      pure { live := false, held := h, calls := s.calls + 1, answers := s.answers ++ [ok] }
  | .event => do let h ← deliver s.held; pure { s with held := h }

def tsRun (s : TsWatch) : List TsOp → Outcome TsWatch
  | [] => .ok s
  | op :: ops => do let s ← tsStep s op; tsRun s ops

/-! ### Python: `close` from several threads -/

/-- Where a thread is in `Watch.close`, watcher.py:188-190: before the test, after it, holding the value
of `self._watcher` it will pass, before the assignment of `None`, at the end. Between any two of these
another thread may run (`ctypes` gives up the interpreter lock during the call). -/
inductive PyPc where
  | test | load | call (h : Bool) | clear | done
deriving DecidableEq, Repr

/-- `attr`: `self._watcher` is a handle. -/
structure PyThreads where
  attr : Bool
  obj : Obj
  pcs : List PyPc
deriving DecidableEq, Repr

/-- Thread `i` takes one step (nothing happens when it has ended or does not exist). Simplification: the C
call is one step. -/
def pyThreadStep (s : PyThreads) (i : Nat) : Outcome PyThreads :=
  match s.pcs[i]? with
  | some .test => .ok { s with pcs := s.pcs.set i (if s.attr then .load else .done) }
  | some .load => .ok { s with pcs := s.pcs.set i (.call s.attr) }
  | some (.call false) => .ok { s with pcs := s.pcs.set i .clear }
  | some (.call true) => do
    let (_, o) ← cCloseObj false s.obj
    pure { s with obj := o, pcs := s.pcs.set i .clear }
  | some .clear => .ok { s with attr := false, pcs := s.pcs.set i .done }
  | _ => .ok s

def pyThreads (s : PyThreads) : List Nat → Outcome PyThreads
  | [] => .ok s
  | i :: is => do let s ← pyThreadStep s i; pyThreads s is

/-! ### Node.js: the queue between the watcher's thread and JavaScript -/

/-- `work_queue_size`, watcher-napi.cpp:145. -/
def queueMax : Nat := 1024

/-- Producer and consumer. `offered`: events for which the watcher called `callback_bridge`; each is copied
to the heap. `queue`: accepted, not yet handed to JavaScript. `delivered`: handed to the callback of the
user; `freed`: copies freed; `closed`: `close()` returned; `late`: callbacks made after that. -/
structure Node (α : Type) where
  offered : List α := []
  queue : List α := []
  delivered : List α := []
  freed : List α := []
  closed : Bool := false
  late : Nat := 0
deriving DecidableEq, Repr

/-- The watcher's thread has an event; the JavaScript loop takes one queue entry; JavaScript calls
`close()`. -/
inductive NodeOp (α : Type) where
  | emit (a : α)
  | turn
  | close
deriving DecidableEq, Repr

/-- `emit`: `callback_bridge`, watcher-napi.cpp:72-88, with the answer of
`napi_call_threadsafe_function(.., nonblocking)` ignored: a full queue refuses the entry. No events come
after `close()`, which waits for the thread (C11). `turn`: `callback_js_receiver`, watcher-napi.cpp:54-67.
`close`: watcher-napi.cpp:92-119; a released function still works off its queue. -/
def nodeStep {α} (s : Node α) : NodeOp α → Node α
  | .emit a =>
    if s.closed then s
    else if s.queue.length < queueMax then { s with offered := s.offered ++ [a], queue := s.queue ++ [a] }
    else { s with offered := s.offered ++ [a] }
  | .turn => match s.queue with
    | [] => s
    | a :: q => { s with queue := q, delivered := s.delivered ++ [a], freed := s.freed ++ [a],
                         late := if s.closed then s.late + 1 else s.late }
  | .close => { s with closed := true }

def nodeRun {α} (s : Node α) (ops : List (NodeOp α)) : Node α := ops.foldl nodeStep s

end Verif.Model.Bind
