import Verif.Model.Polled
import Verif.Spec.Lifecycle
/-!
# What a user sees of a watcher's life on Windows and with the portable scanner (C87 - C93)
-/

namespace Verif.Spec.Poll
open Verif Verif.Model Verif.Model.Poll

/-- What the callback has received, oldest first. -/
def callbacks {ε : Type} : List (Obs ε) → List (Msg ε)
  | [] => []
  | .cb m :: l => m :: callbacks l
  | _ :: l => callbacks l

/-- The callback has received the live message first, then events, and no die message. -/
def Begun {ε : Type} (l : List (Msg ε)) : Prop := ∃ (a : Bool) (es : List ε), l = .live a :: es.map .ev

/-- A complete story: live message, events, die message. -/
def Ended {ε : Type} (live die : Bool) (l : List (Msg ε)) : Prop := ∃ es : List ε, l = .live live :: es.map .ev ++ [.die die]

/-- Does the action belong to the worker? -/
def isWorker {B : Backend} : Act B → Bool
  | .o | .oClose | .oDtor => false
  | _ => true

/-- What the system answered in a schedule, oldest first. -/
def answers {B : Backend} : List (Act B) → List B.ι
  | [] => []
  | .sys i :: as => i :: answers as
  | _ :: as => answers as

/-- Some `close()`, or the destructor, has given the stop signal. -/
def Released {B : Backend} (s : St B) : Prop := s.is = .released

/-- A back end that plays back answers of the system: what it delivers and where it is then. -/
def plays (B : Backend) : List B.ι → Option (List B.ε × (B.σ ⊕ Bool))
  | [] => none
  | i :: is => (B.start i).bind fun r => is.foldl (fun acc i => acc.bind fun r => match r.2 with
      | .inl s => (B.turn s i).map fun q => (r.1 ++ q.1, q.2)
      | .inr _ => none) (some r)

/-! ### Messages as events -/

/-- The event a message of the scanner is. -/
def shown (path : Str) : Msg Ev → Ev
  | .live ok => Spec.liveMsg path ok
  | .die ok => Spec.dieMsg path ok
  | .ev e => e

/-- Effect and type of what is delivered on Windows (1825-1835: the two messages about reading are events of
path type watcher, effect other). -/
def looks : Msg Windows.Said → EffectType × PathType
  | .live _ => (.create, .watcher)
  | .die _ => (.destroy, .watcher)
  | .ev (.ev e) => (e.effect, e.ptype)
  | .ev .readPending => (.other, .watcher)
  | .ev .readFailed => (.other, .watcher)

/-- No batch holds an event about the watcher itself (no batch does, see `C87_windows_batches`). -/
def FileEvents : WinAns → Prop
  | .opened _ (.ok _ evs) => ∀ e ∈ evs, e.ptype ≠ .watcher
  | .completion (some (_, evs)) => ∀ e ∈ evs, e.ptype ≠ .watcher
  | .read (.ok _ evs) => ∀ e ∈ evs, e.ptype ≠ .watcher
  | _ => True

/-! ### Answers of the system, as the models of the back ends take them -/

/-- The scanner's worlds, two for each pass. -/
def pairs : List Warthog.World → List (Warthog.World × Warthog.World)
  | a :: b :: r => (a, b) :: pairs r
  | _ => []

/-- The reads' answers up to the next answer of another kind. -/
def reads : List WinAns → List Windows.ReadAnswer
  | .read a :: r => a :: reads r
  | _ => []

/-- Completions, each with the reads that follow it. -/
def group : List WinAns → List Windows.Completion
  | [] => []
  | .completion none :: r => .nothing :: group r
  | .failed :: r => .failed :: group r
  | .completion (some (n, evs)) :: r => .done n evs (reads r) :: group r
  | _ :: r => group r

/-- Reads are not answered at once: `ReadDirectoryChangesW` on a handle opened for overlapped use only queues the
read (or fails), so it has no bytes to offer. -/
def Queued : WinAns → Prop
  | .opened _ (.ok n _) => n = 0
  | .read (.ok n _) => n = 0
  | _ => True

/-- What the callback has received between the live and the die message. -/
def eventsOf {ε : Type} : List (Msg ε) → List ε
  | [] => []
  | .ev e :: l => e :: eventsOf l
  | _ :: l => eventsOf l

end Verif.Spec.Poll
