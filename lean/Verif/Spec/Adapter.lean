import Verif.Model.Adapter
import Verif.Spec.Lifecycle
import Verif.Spec.Kernel
import Verif.Spec.Fanotify
/-!
# Specification of a whole watch on Linux (C79 - C81)
-/

namespace Verif.Spec
open Verif Verif.Model Verif.Model.Ad

/-- Everything the back end of a watch has handed over, oldest first. -/
def handed {σ} (c : CS σ) : List Ev := c.back.out

/-- What `read` on the back end's descriptor may answer: an error, or whole records that fit into the buffer
(fanotify: such batches as `ok` allows). -/
def KernelRead {σ} (ok : List FRec → Prop) (b : Back σ) (r : In.ReadAns) : Prop :=
  (∃ e, r = .err e) ∨
  match b with
  | .none _ => False
  | .inn _ => ∃ rs, Batch rs ∧ r = .data (batch rs)
  | .fa _ => ∃ rs, FBatch rs ∧ ok rs ∧ r = .data (fbatch rs)

/-- A step in which every read is answered as the kernel documents. -/
def KernelStep {σ} (ok : List FRec → Prop) (c : CS σ) : CAct σ → Prop
  | .wake ws => ∀ r, Waked.ke r ∈ ws → KernelRead ok c.back r
  | _ => True

/-- A schedule all of whose steps, as far as it gets, are such. -/
def KernelRun {σ} (ok : List FRec → Prop) (cfg : Life.Cfg) (E : Env σ) (c : CS σ) : List (CAct σ) → Prop
  | [] => True
  | a :: as => KernelStep ok c a ∧ ∀ c', cstep cfg E c a = .ok (some c') → KernelRun ok cfg E c' as

end Verif.Spec

namespace Verif.Spec.Whole
open Verif Verif.Model Verif.Model.Ad Verif.Model.Ker

/-- What happens around a watch that uses inotify on the kernel of `Model/Kernel.lean`. -/
inductive HStep where
  | thread (a : Life.Act)                         -- a step of owner, worker or callback
  | noFanotify (root : Bool)                      -- the first attempt finds that fanotify is not available
  | openInotify (a : OpenAns) (sched : List (List Op × Bool))   -- the second, with what happens meanwhile
  | op (o : Op)                                   -- another process changes the tree
  | wakeStop                                      -- `epoll_wait` returned the stop signal only
  | wakeRead (n : Nat) (sched : List (List Op × Bool))       -- it returned the inotify descriptor: `n` records are read
  | wakeBoth (stopFirst : Bool) (n : Nat) (sched : List (List Op × Bool))

/-- The world with the first `n` pending records taken by `read`. -/
def taken (w : World) (n : Nat) (sched : List (List Op × Bool)) : World :=
  { k := { w.k with queue := w.k.queue.drop n }, sched := sched }

/-- The bytes of the first `n` pending records. -/
def bytesOf (w : World) (n : Nat) : List UInt8 := batch (w.k.queue.take n)

/-- The entries of a wake-up. -/
def entries (stop : Option Bool) (d : List UInt8) : List Waked :=
  match stop with
  | none => [.ke (.data d)]
  | some true => [.il, .ke (.data d)]
  | some false => [.ke (.data d), .il]

/-- A wake-up with a read of `n` records; more than fit into the buffer are not read. -/
def wakeWith (cfg : Life.Cfg) (E : Env World) (c : CS World) (stop : Option Bool) (n : Nat)
    (sched : List (List Op × Bool)) : Outcome (Option (CS World)) :=
  if (bytesOf c.back.world n).length ≤ 4096 then
    cstep cfg E { c with back := c.back.setWorld (taken c.back.world n sched) }
      (.wake (entries stop (bytesOf c.back.world n)))
  else .ok none

/-- One step. -/
def hstep (cfg : Life.Cfg) (E : Env World) (c : CS World) : HStep → Outcome (Option (CS World))
  | .thread a => cstep cfg E c (.life a)
  | .noFanotify root =>
    if c.life.w = .aOpen false then cstep cfg E c (.openBack ⟨root, -1, [], ⟨-1, false, false⟩⟩) else .ok none
  | .openInotify a sched =>
    if c.life.w = .aOpen true then
      cstep cfg E { c with back := c.back.setWorld { c.back.world with sched := sched } } (.openBack a)
    else .ok none
  | .op o => cstep cfg E c (.world { c.back.world with k := apply c.back.world.k o })
  | .wakeStop => cstep cfg E c (.wake [.il])
  | .wakeRead n sched => wakeWith cfg E c none n sched
  | .wakeBoth first n sched => wakeWith cfg E c (some first) n sched

/-- A history. -/
def hrun (cfg : Life.Cfg) (E : Env World) (c : CS World) : List HStep → Outcome (Option (CS World))
  | [] => .ok (some c)
  | a :: as => do
    match ← hstep cfg E c a with
    | none => pure none
    | some c' => hrun cfg E c' as

/-- A watch just constructed on a tree with the directories `dirs`. -/
def start (cfg : Life.Cfg) (dirs : List Str) : CS World := cinit cfg { k := { dirs := dirs } }

/-- The same, if at most `limit` records may be pending in the kernel. -/
def startLim (limit : Option Nat) (cfg : Life.Cfg) (dirs : List Str) : CS World := cinit cfg { k := { dirs := dirs, limit := limit } }

/-- Steps in which no file moves between two watched directories, and no directory is moved. -/
def Calm : HStep → Bool
  | .openInotify _ sched => Ker.allSched Ker.local sched && Ker.allSched Ker.keepsDirs sched
  | .op o => Ker.local o && Ker.keepsDirs o
  | .wakeRead _ sched | .wakeBoth _ _ sched => Ker.allSched Ker.local sched && Ker.allSched Ker.keepsDirs sched
  | _ => true

end Verif.Spec.Whole
