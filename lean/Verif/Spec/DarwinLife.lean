import Verif.Model.DarwinLife
import Verif.Spec.Lifecycle
/-!
# What a user sees of a watcher's life on Darwin (C95 - C102)
-/

namespace Verif.Spec.DLife
open Verif Verif.Model Verif.Model.DLife
open Verif.Model.Darwin (Note)

/-- What the callback has received, oldest first. -/
def callbacks : List Obs → List Msg
  | [] => []
  | .cb m :: l => m :: callbacks l
  | _ :: l => callbacks l

/-- The callback has received the live message first, then events, and no die message. -/
def Begun (l : List Msg) : Prop := ∃ (a : Bool) (es : List Ev), l = .live a :: es.map .ev

/-- A complete story: live message, events, die message. -/
def Ended (live die : Bool) (l : List Msg) : Prop := ∃ es : List Ev, l = .live live :: es.map .ev ++ [.die die]

/-- The event a message is. -/
def shown (path : Str) : Msg → Ev
  | .live ok => Spec.liveMsg path ok
  | .die ok => Spec.dieMsg path ok
  | .ev e => e

/-- Calls of the callback never overlap: in what is seen, from a moment at which `busy` says whether one is running, a
call begins only when none runs, and a return follows a call. -/
def OneAtATime : Bool → List Obs → Prop
  | _, [] => True
  | busy, .cb _ :: l => busy = false ∧ OneAtATime true l
  | busy, .cbRet :: l => busy = true ∧ OneAtATime false l
  | busy, _ :: l => OneAtATime busy l

/-- What `close()` has answered the owner, oldest first. -/
def answered : List Obs → List Bool
  | [] => []
  | .closeRet b :: l => b :: answered l
  | _ :: l => answered l

/-- Answers of `open_event_stream` in a schedule. -/
def opens : List Act → List Bool
  | [] => []
  | .opened b :: l => b :: opens l
  | _ :: l => opens l

/-- The batches the system has sent in a schedule, oldest first. -/
def notified : List Act → List (List Note)
  | [] => []
  | .notify b :: l => b :: notified l
  | _ :: l => notified l

/-- The owner's actions. -/
def isOwner : Act → Bool
  | .o | .oClose | .oDtor => true
  | _ => false

/-- The worker's actions. -/
def isWorker : Act → Bool
  | .w | .opened _ | .cbReturn | .cbClose => true
  | _ => false

/-- Callbacks that call `close()`. -/
def closesItself : Act → Bool
  | .cbClose | .kClose => true
  | _ => false

/-- The stop signal was given: the flag is set and the semaphore was signalled (or both will not be looked at any more). -/
def Released (s : St) : Prop := s.is = .released

/-- No callback is inside a `close()`. -/
def NobodyInside (s : St) : Prop := (∀ c p, s.w ≠ .liveClose c p) ∧ (∀ c p q, s.w ≠ .dieClose c p q) ∧ ∀ c es ns, s.k ≠ .selfClose c es ns

/-- Steps the threads of the system and the worker have still to make for what has been notified: at most nine for each
notification (four events, each a call and a return) and three for each batch, and the worker's. -/
def stillToDo (s : St) : Nat :=
  13 + (match s.k with
    | .free => 0
    | .handling es ns => 1 + 2 * es.length + 9 * ns.length
    | .inCb es ns => 2 + 2 * es.length + 9 * ns.length
    | .selfClose _ es ns => 2 + 2 * es.length + 9 * ns.length) +
  (s.entered.map (fun b => 2 + 9 * b.length)).sum + (s.pending.map (fun b => 3 + 9 * b.length)).sum

/-- The system's calls of `event_recv` do not overlap in the schedule: when one tries the mutex, no other is handling a
batch. -/
def Serial (d : Bool) (acts : List Act) : Prop := ∀ pre i post s, acts = pre ++ .tryLock i :: post → run true d {} pre = some s → s.k = .free

end Verif.Spec.DLife
