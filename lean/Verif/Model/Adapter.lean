import Verif.Model.Lifecycle
import Verif.Model.Inotify
import Verif.Model.Fanotify
import Verif.Model.Fds
/-!
# A watch on Linux, whole

Puts the life of a `watch` object (`Model/Lifecycle.lean`: owner, worker, stop signal, wake-ups) and the
two back ends (`Model/Fanotify.lean`, `Model/Inotify.lean`) together, as `watch` and `platform_watch` do
(`include/wtr/watcher.hpp`, 1654-1724): the answers of `make_sysres` and `do_ev_recv`, which are inputs of
the lifecycle model, are computed here by the models of these functions.

Simplification: a call of `make_sysres` or `do_ev_recv` reads the file system and computes its events in
one go, and the callback is called with them afterwards, one by one; other processes (and the callback) act
on the file system through the abstract world `σ`, which every system call may change, so nothing they can
do is lost by this.
-/

namespace Verif.Model.Ad
open Verif Verif.Model

/-- The system calls of the two back ends. -/
structure Env (σ : Type) where
  fa : Fa.Sys σ
  inn : In.Sys σ

/-- The memory of the back end in use, `struct sysres` (watcher.hpp:1050-1055, 1379-1384): none yet, with
the world only. -/
inductive Back (σ : Type) where
  | none (w : σ)
  | fa (st : Fa.St σ)
  | inn (st : In.St σ)

/-- The world. -/
def Back.world {σ} : Back σ → σ
  | .none w => w
  | .fa st => st.sys
  | .inn st => st.sys

/-- Other processes change the world. -/
def Back.setWorld {σ} : Back σ → σ → Back σ
  | .none _, w => .none w
  | .fa st, w => .fa { st with sys := w }
  | .inn st, w => .inn { st with sys := w }

/-- The events the back end in use has handed over so far, oldest first. -/
def Back.out {σ} : Back σ → List Ev
  | .none _ => []
  | .fa st => st.out.map (·.1)
  | .inn st => st.out

/-- What opening depends on: `geteuid() == 0` (1711), the descriptor of `fanotify_init` or `inotify_init`,
the directories `walkdir_do` visits, and the answers of `epoll_create1` and `epoll_ctl`. -/
structure OpenAns where
  root : Bool
  initFd : Int
  dirs : List Str
  ep : Fds.EpAns
deriving DecidableEq, Repr

/-- `fanotify::make_sysres`, watcher.hpp:1077-1094, or its being skipped (1708-1715). -/
def openFa {σ} (S : Fa.Sys σ) (a : OpenAns) (w : σ) : Fa.St σ × Result :=
  let st : Fa.St σ := { buf := List.replicate Fa.bufLen 0, sys := w }
  if ! a.root then (st, .eFanotify)
  else if a.initFd < 1 then (st, .eFanotify)
  else (a.dirs.foldl (fun st d => (Fa.doMark S d st).1) st, (Fds.faMake a.initFd a.ep).1.ok)

/-- `inotify::make_sysres`, watcher.hpp:1400-1443. -/
def openIn {σ} (S : In.Sys σ) (a : OpenAns) (w : σ) : In.St σ × Result :=
  let st : In.St σ := { dm := [], sys := w }
  if a.initFd < 0 then (st, (Fds.inMake a.initFd true a.ep).1.ok)
  else
    let m := In.makeDm S a.dirs st
    (m.1, (Fds.inMake a.initFd (m.2 == .eNoent) a.ep).1.ok)

/-- One entry of a wake-up (1670-1675): the stop signal, the back end's descriptor with what `read` will
answer, or anything else. -/
inductive Waked where
  | il
  | ke (r : In.ReadAns)
  | unknown
deriving DecidableEq, Repr

/-- `do_ev_recv` of the back end in use: its memory, the events it hands over, its answer. -/
def recv {σ} (E : Env σ) (b : Back σ) (r : In.ReadAns) : Outcome (Back σ × List Ev × Result) :=
  match b with
  | .none w => .ok (.none w, [], .eEpoll)   -- not reached: no wake-up before opening
  | .fa st => do
    let (st', res) ← Fa.doEvRecv E.fa r st
    pure (.fa st', (st'.out.drop st.out.length).map (·.1), res)
  | .inn st => do
    let (st', res) ← In.doEvRecv E.inn r st
    pure (.inn st', st'.out.drop st.out.length, res)

/-- The `for` over a wake-up, watcher.hpp:1669-1675. -/
def recvAll {σ} (E : Env σ) (b : Back σ) : List Waked → Outcome (Back σ × List Life.Item)
  | [] => .ok (b, [])
  | .il :: ws => do
    let (b, is) ← recvAll E b ws
    pure (b, .il :: is)
  | .unknown :: ws => do
    let (b, is) ← recvAll E b ws
    pure (b, .unknown :: is)
  | .ke r :: ws => do
    let (b, evs, res) ← recv E b r
    let (b, is) ← recvAll E b ws
    pure (b, .ke evs res :: is)

/-- A watch. -/
structure CS (σ : Type) where
  life : Life.St
  back : Back σ

/-- Inputs of a step. -/
inductive CAct (σ : Type) where
  | life (a : Life.Act)         -- a step of owner or worker that involves no back end
  | openBack (a : OpenAns)      -- `make_sysres`
  | wake (ws : List Waked)      -- `epoll_wait` returned these, and they are handled
  | world (w : σ)               -- other processes

/-- Is the step of the lifecycle model one that involves no back end? -/
def plainAct : Life.Act → Bool
  | .wOpen _ _ => false
  | .wWake _ => false
  | _ => true

/-- One step; `none` when the input is not possible in that state. -/
def cstep {σ} (cfg : Life.Cfg) (E : Env σ) (c : CS σ) : CAct σ → Outcome (Option (CS σ))
  | .life a =>
    if plainAct a then .ok ((Life.step cfg c.life a).map fun l => { c with life := l }) else .ok none
  | .openBack a =>
    -- a stop signal without descriptor cannot be registered
    if a.ep.ctlIl && !cfg.fdOk then .ok none
    else match c.life.w with
    | .aOpen false =>
      let (st, r) := openFa E.fa a c.back.world
      .ok ((Life.step cfg c.life (.wOpen (st.out.map (·.1)) r)).map fun l => ⟨l, .fa st⟩)
    | .aOpen true =>
      let (st, r) := openIn E.inn a c.back.world
      .ok ((Life.step cfg c.life (.wOpen st.out r)).map fun l => ⟨l, .inn st⟩)
    | _ => .ok none
  | .wake ws =>
    match c.life.w with
    | .aWait _ => do
      let (b, items) ← recvAll E c.back ws
      pure ((Life.step cfg c.life (.wWake items)).map fun l => ⟨l, b⟩)
    | _ => .ok none
  | .world w => .ok (some { c with back := c.back.setWorld w })

/-- A whole schedule: `none` if some input was not possible. -/
def crun {σ} (cfg : Life.Cfg) (E : Env σ) (c : CS σ) : List (CAct σ) → Outcome (Option (CS σ))
  | [] => .ok (some c)
  | a :: as => do
    match ← cstep cfg E c a with
    | none => pure none
    | some c' => crun cfg E c' as

/-- A watch right after construction. -/
def cinit {σ} (cfg : Life.Cfg) (w : σ) : CS σ := ⟨Life.init cfg, .none w⟩

/-- States some schedule leads to. -/
def CReach {σ} (cfg : Life.Cfg) (E : Env σ) (c : CS σ) : Prop :=
  ∃ w acts, crun cfg E (cinit cfg w) acts = .ok (some c)

end Verif.Model.Ad
