import Verif.Spec.Adapter
import Verif.Spec.FKernel
/-!
# Specification of a whole watch on Linux that uses fanotify (C106 - C108)
-/

namespace Verif.Spec.WholeF
open Verif Verif.Model Verif.Model.Ad Verif.Model.FKer Verif.Spec.FKer

/-- What happens around a watch that uses fanotify on the kernel of `Model/FKernel.lean`. -/
inductive HStep where
  | thread (a : Life.Act)                                         -- a step of owner, worker or callback
  | openFanotify (a : OpenAns) (sched : List (List Do × Bool))    -- fanotify is opened, with what happens meanwhile
  | op (o : Do)                                                   -- another process changes the tree
  | wakeStop                                                      -- `epoll_wait` returned the stop signal only
  | wakeRead (n : Nat) (sched : List (List Do × Bool))            -- it returned the fanotify descriptor: `n` records are read
  | wakeBoth (stopFirst : Bool) (n : Nat) (sched : List (List Do × Bool))

/-- The world with the first `n` pending records taken by `read`. -/
def taken (w : World) (n : Nat) (sched : List (List Do × Bool)) : World :=
  { w with k := { w.k with queue := w.k.queue.drop n }, sched := sched }

/-- The bytes of the first `n` pending records. -/
def bytesOf (w : World) (n : Nat) : List UInt8 := fbatch (w.k.queue.take n)

/-- A wake-up with a read of `n` records; more than fit into the buffer are not read. -/
def wakeWith (cfg : Life.Cfg) (E : Env World) (c : CS World) (stop : Option Bool) (n : Nat)
    (sched : List (List Do × Bool)) : Outcome (Option (CS World)) :=
  if (bytesOf c.back.world n).length ≤ 4096 then
    cstep cfg E { c with back := c.back.setWorld (taken c.back.world n sched) }
      (.wake (Whole.entries stop (bytesOf c.back.world n)))
  else .ok none

/-- One step. Fanotify is available: the process is root's and `fanotify_init` answers a descriptor. -/
def hstep (cfg : Life.Cfg) (E : Env World) (c : CS World) : HStep → Outcome (Option (CS World))
  | .thread a => cstep cfg E c (.life a)
  | .openFanotify a sched =>
    if a.root && decide (1 ≤ a.initFd) then
      cstep cfg E { c with back := c.back.setWorld { c.back.world with sched := sched } } (.openBack a)
    else .ok none
  | .op o => cstep cfg E c (.world { c.back.world with k := doIt c.back.world.k o })
  | .wakeStop => cstep cfg E c (.wake [.il])
  | .wakeRead n sched => wakeWith cfg E c none n sched
  | .wakeBoth first n sched => wakeWith cfg E c (some first) n sched

/-- A history. -/
def hrun (cfg : Life.Cfg) (E : Env World) (c : CS World) : List HStep → Outcome (Option (CS World))
  | [] => .ok (some c)
  | a :: as => do
    match ← hstep cfg E c a with
    | none => pure none
    | some c' => hrun cfg E c' as

/-- A watch just constructed on a tree with the directories `dirs`. -/
def start (cfg : Life.Cfg) (dirs : List (Handle × Str)) : CS World := cinit cfg { k := { dirs := dirs, past := dirs } }

/-- All operations of a step satisfy `p`. -/
def allDo (p : Do → Bool) : HStep → Bool
  | .op o => p o
  | .openFanotify _ sched | .wakeRead _ sched | .wakeBoth _ _ sched => allSched p sched
  | _ => true

/-- All operations that happen during the system calls of a read satisfy `p`. -/
def allWakes (p : Do → Bool) : HStep → Bool
  | .wakeRead _ sched | .wakeBoth _ _ sched => allSched p sched
  | _ => true

/-- The state of the kernel when a step reads, the records it reads, and what happens during the read satisfy `R`. -/
def readOk (R : K → List FRec → List (List Do × Bool) → Prop) (c : CS World) : HStep → Prop
  | .wakeRead n sched | .wakeBoth _ n sched => R c.back.world.k (c.back.world.k.queue.take n) sched
  | _ => True

/-- All reads of a history satisfy `R`. -/
def ReadsOk (R : K → List FRec → List (List Do × Bool) → Prop) (cfg : Life.Cfg) (E : Env World) (c : CS World) : List HStep → Prop
  | [] => True
  | a :: as => readOk R c a ∧ ∀ c', hstep cfg E c a = .ok (some c') → ReadsOk R cfg E c' as

/-- No read returns a new name directly followed by an old name, or fills the buffer up to its end with a
rename there. -/
def FineReads (cfg : Life.Cfg) (E : Env World) (c : CS World) (hs : List HStep) : Prop :=
  ReadsOk (fun _ rs _ => NoSwap rs ∧ Roomy rs) cfg E c hs

/-- Whenever records are read, the directories they are about are still there. -/
def PresentReads (cfg : Life.Cfg) (E : Env World) (c : CS World) (hs : List HStep) : Prop :=
  ReadsOk (fun k rs _ => ∀ r ∈ rs, r.handle ∈ k.dirs.map (·.1)) cfg E c hs

/-- A step of a watcher that keeps up: the tree changes only when everything before has been read (and, here,
after the opening), reads take everything pending, and nothing happens during system calls. -/
def calm (c : CS World) : HStep → Prop
  | .op _ => (∃ st, c.back = .fa st) ∧ c.back.world.k.queue = []
  | .openFanotify _ sched => sched = []
  | .wakeRead n sched | .wakeBoth _ n sched => sched = [] ∧ c.back.world.k.queue.length ≤ n
  | _ => True

/-- A history in which the watcher keeps up. -/
def KeepsUp (cfg : Life.Cfg) (E : Env World) (c : CS World) : List HStep → Prop
  | [] => True
  | a :: as => calm c a ∧ ∀ c', hstep cfg E c a = .ok (some c') → KeepsUp cfg E c' as

/-- What other processes do in a history. -/
def opsOf : List HStep → List Do
  | [] => []
  | .op o :: as => o :: opsOf as
  | _ :: as => opsOf as

/-- The directories marked when the watch is opened. -/
def marksOf : List HStep → List Str
  | [] => []
  | .openFanotify a _ :: _ => a.dirs
  | _ :: as => marksOf as

end Verif.Spec.WholeF
