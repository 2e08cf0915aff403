import Verif.Base
/-!
# The `event` object

Models `include/wtr/watcher.hpp` lines 57-142 (and 150-353 for its text, in `Model/Text.lean`).
-/

namespace Verif.Model
open Verif

/-- `enum class effect_type`, watcher.hpp:71-78. -/
inductive EffectType where
  | rename | modify | create | destroy | owner | other
deriving DecidableEq, Repr

/-- `enum class path_type`, watcher.hpp:81-88. -/
inductive PathType where
  | dir | file | hardLink | symLink | watcher | other
deriving DecidableEq, Repr

/-- Integer value of an enumerator (implicit C++ numbering, watcher.hpp:71-78). -/
def EffectType.toNat : EffectType → Nat
  | .rename => 0 | .modify => 1 | .create => 2 | .destroy => 3 | .owner => 4 | .other => 5

/-- Integer value of an enumerator (implicit C++ numbering, watcher.hpp:81-88). -/
def PathType.toNat : PathType → Nat
  | .dir => 0 | .file => 1 | .hardLink => 2 | .symLink => 3 | .watcher => 4 | .other => 5

/-- `struct event`, watcher.hpp:57-142: path name, effect type, path type, effect time and the
owned associated event. Simplifications: the `unique_ptr` is an `Option` (ownership is by value in
the model); `long long` times are unbounded `Int`s, range hypotheses are explicit where they
matter. -/
inductive Event where
  | mk (path : Str) (effect : EffectType) (ptype : PathType) (time : Int) (assoc : Option Event)
deriving Repr

namespace Event

def path : Event → Str | .mk p _ _ _ _ => p
def effect : Event → EffectType | .mk _ e _ _ _ => e
def ptype : Event → PathType | .mk _ _ p _ _ => p
def time : Event → Int | .mk _ _ _ t _ => t
def assoc : Event → Option Event | .mk _ _ _ _ a => a

/-- Constructor from path, effect and path type, watcher.hpp:111-117: the time is the member
initialiser's clock reading (watcher.hpp:96-98), passed here as `now`; no associated event. -/
def make (now : Int) (path : Str) (effect : EffectType) (ptype : PathType) : Event :=
  .mk path effect ptype now none

/-- Constructor from a base and an associated event, watcher.hpp:119-123. The base's time and the
base's own associated event are not taken over: the time is a fresh clock reading. The associated
event is copied through the copy constructor (`make_unique<event>(std::forward<event>(..))`; there
is no move constructor). -/
def join (now : Int) (base associated : Event) : Event :=
  .mk base.path base.effect base.ptype now (some associated)

/-- Copy constructor, watcher.hpp:102-109: recursively copies the associated event. -/
def copy : Event → Event
  | .mk p e t tm none => .mk p e t tm none
  | .mk p e t tm (some a) => .mk p e t tm (some (copy a))

end Event

/-! ### `std::filesystem::path` comparison (library behaviour relied on by `operator==`) -/

/-- The byte `/`. -/
def slash : UInt8 := 47

/-- Split into maximal runs of non-slash bytes, keeping an empty last element after a trailing
separator, as iteration over a `std::filesystem::path` does ([fs.path.itr]); `cur` is the (reversed)
current element, `pend` says a separator was read since. -/
def splitElems : (cur : Str) → (pend : Bool) → Str → List Str
  | cur, pend, [] => if pend then [cur.reverse, []] else if cur.isEmpty then [] else [cur.reverse]
  | cur, pend, c :: cs =>
    if c = slash then
      splitElems cur true cs
    else if pend then
      cur.reverse :: splitElems [c] false cs
    else
      splitElems (c :: cur) false cs

/-- Elements of a path: whether it has a root directory, and its relative elements. Repeated
separators count once, a trailing separator adds an empty element ([fs.path.itr], POSIX). -/
def pathElems (p : Str) : Bool × List Str :=
  let rooted := p.head? == some slash
  (rooted, splitElems [] false (p.dropWhile (· == slash)))

/-- `operator==` of `std::filesystem::path`, used at watcher.hpp:132: equality of the element
sequences ([fs.path.compare]). -/
def pathEq (a b : Str) : Bool := pathElems a == pathElems b

/-- `operator==` of `event`, watcher.hpp:130-136, in the order of the source's conjunction. -/
def Event.eq : Event → Event → Bool
  | .mk lp le lt ltm (some la), .mk rp re rt rtm (some ra) =>
    pathEq lp rp && ltm == rtm && lt == rt && le == re && Event.eq la ra
  | .mk lp le lt ltm none, .mk rp re rt rtm none =>
    pathEq lp rp && ltm == rtm && lt == rt && le == re
  | .mk _ _ _ _ (some _), .mk _ _ _ _ none => false
  | .mk _ _ _ _ none, .mk _ _ _ _ (some _) => false

/-- `operator!=` of `event`, watcher.hpp:138-141. -/
def Event.ne (l r : Event) : Bool := ! Event.eq l r

end Verif.Model
