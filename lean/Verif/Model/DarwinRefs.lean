import Verif.Model.Event
/-!
# Objects of the system that a watch on Darwin makes

Models the reference counts of what `include/wtr/watcher.hpp` makes and gives back on Darwin: the semaphore of the stop signal (438, 457), and the string, the array and the stream of
`open_event_stream` (656-706) and `close_event_stream` (774-785). How the threads get there is `Model/DarwinLife.lean`.

What the documentation of the system says: a `Create` function answers null or an object with one reference that is the caller's; an array made with `kCFTypeArrayCallBacks` and a stream keep one
reference to what they hold until they are destroyed; an object is destroyed with its last reference; retaining or releasing null, or an object that was destroyed, is undefined.

The comment at 667-671 says that string and array "appear to be managed" by the stream; by the documentation the caller has references of its own.

Simplifications: the queue is global and has no references of the watch (659); a stream is not made without an array.
-/

namespace Verif.Model.DRefs

/-- What the system answers to the `Create` functions (659, 672-673, 677-682, 687-695): whether the result is not null. -/
structure Ans where
  queue : Bool
  string : Bool
  array : Bool
  stream : Bool
deriving DecidableEq, Repr

/-- The references to the objects of one watch; 0: there is no such object. -/
structure Heap where
  sem : Nat := 0
  string : Nat := 0
  array : Nat := 0
  stream : Nat := 0
  bad : Bool := false      -- null or a destroyed object was retained or released
deriving DecidableEq, Repr

/-- `CFRetain` of the string. -/
def retainString (h : Heap) : Heap := if h.string = 0 then { h with bad := true } else { h with string := h.string + 1 }

/-- `CFRelease` of the string. -/
def releaseString (h : Heap) : Heap := if h.string = 0 then { h with bad := true } else { h with string := h.string - 1 }

/-- `CFRetain` of the array. -/
def retainArray (h : Heap) : Heap := if h.array = 0 then { h with bad := true } else { h with array := h.array + 1 }

/-- `CFRelease` of the array: the last reference destroys it, and it gives back the string. -/
def releaseArray (h : Heap) : Heap :=
  if h.array = 0 then { h with bad := true }
  else if h.array = 1 then releaseString { h with array := 0 }
  else { h with array := h.array - 1 }

/-- `FSEventStreamRelease`: the last reference destroys the stream, and it gives back the array. -/
def releaseStream (h : Heap) : Heap :=
  if h.stream = 0 then { h with bad := true }
  else if h.stream = 1 then releaseArray { h with stream := 0 }
  else { h with stream := h.stream - 1 }

/-- `CFStringCreateWithCString`, watcher.hpp:672-673. -/
def makeString (a : Ans) (h : Heap) : Heap := if a.string then { h with string := 1 } else h

/-- `CFArrayCreate` of one value, watcher.hpp:677-682: it retains the value. -/
def makeArray (a : Ans) (h : Heap) : Heap := if a.array then { retainString h with array := 1 } else h

/-- `FSEventStreamCreate`, watcher.hpp:687-695. -/
def makeStream (a : Ans) (h : Heap) : Heap := if a.stream && a.array then { retainArray h with stream := 1 } else h

/-- `open_event_stream`, watcher.hpp:656-706: whether it answers a stream. -/
def openStream (a : Ans) (h : Heap) : Heap × Bool :=
  let h := makeStream a (makeArray a (makeString a h))
  let stream := a.stream && a.array
  -- 696
  if stream && a.queue && a.string && a.array then (h, true)
  else
    -- 698-701
    let h := if stream then releaseStream h else h
    let h := if a.string then releaseString h else h
    let h := if a.array then releaseArray h else h
    (h, false)

/-- `close_event_stream`, watcher.hpp:774-785. -/
def closeStream (h : Heap) (stream : Bool) : Heap := if stream then releaseStream h else h

/-- The constructor makes the semaphore, watcher.hpp:438; the destructor does not give it back (457). -/
def makeSem (h : Heap) : Heap := { h with sem := 1 }

/-- Everything a watch whose path can be watched does, from the constructor to the end of the destructor, watcher.hpp:438, 798-811, 2246-2282. -/
def life (a : Ans) : Heap :=
  let h := makeSem {}
  let (h, ok) := openStream a h
  closeStream h ok

/-- A program that makes and destroys one watch after the other, with what the system answers each of them; the objects that are left, of each watch. -/
def program : List Ans → List Heap
  | [] => []
  | a :: as => life a :: program as

end Verif.Model.DRefs
