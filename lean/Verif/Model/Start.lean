/-!
# Starting watches: threads and memory (include/wtr/watcher.hpp 2238-2281)

The constructor of `watch` (2246-2272) calls `std::async` with `std::launch::async`: the path and the callback are copied twice (into the lambda at
2251, and with it into the shared state), and a thread is made. If there is no memory `std::bad_alloc` is thrown, and if there is no thread
`std::system_error` (with `launch::async` alone there is no other way to run the task); the constructor is `noexcept`, so either ends the program
(`std::terminate`). `wtr_watcher_open` (watcher-c/src/watcher-c.cpp 34-66), through which the C, Python, Node.js and Rust packages go, calls it in
line 66 and has no way to prevent this. The destructor (2281) closes the watch, and the destructor of the future (2243) joins the thread.

Simplifications: what the worker does is not modelled here (see `Model/Lifecycle.lean`): it ends at some time (`over`) or never does. Memory is an
answer of the environment. Threads that the system itself makes on Darwin are not counted.
-/

namespace Verif.Model.Start

/-- What happens in a program. -/
inductive Act where
  | make (mem : Bool)   -- a watch is constructed; `mem`: there is memory for the copies and the shared state
  | over (i : Nat)      -- the worker of the `i`-th watch made is through
  | gone (i : Nat)      -- the destructor of the `i`-th watch returns
  | spawn               -- the program makes another thread, and is answered one
  | join                -- and one of those has ended
deriving DecidableEq, Repr

/-- A watch: its worker runs; it is through; the watch is gone. -/
inductive Ph where
  | running
  | through
  | gone
deriving DecidableEq, Repr

/-- The program. -/
structure St where
  watches : List Ph := []
  others : Nat := 0       -- threads besides the first one and those of the watches
  dead : Bool := false    -- `std::terminate` has been called
deriving DecidableEq, Repr

/-- The threads of the program. -/
def threads (s : St) : Nat := 1 + s.others + s.watches.count .running

/-- One step where the system permits `limit` threads (`RLIMIT_NPROC`, `pids.max`, `threads-max`). -/
def step (limit : Nat) (s : St) (a : Act) : Option St :=
  if s.dead then none
  else match a with
  -- 2246-2272
  | .make mem =>
    if mem && decide (threads s < limit) then some { s with watches := s.watches ++ [.running] } else some { s with dead := true }
  | .over i => if s.watches[i]? = some .running then some { s with watches := s.watches.set i .through } else none
  -- 2281 and the destructor of 2243: returns when the thread has ended
  | .gone i => if s.watches[i]? = some .through then some { s with watches := s.watches.set i .gone } else none
  | .spawn => if threads s < limit then some { s with others := s.others + 1 } else none
  | .join => if 0 < s.others then some { s with others := s.others - 1 } else none

/-- Several. -/
def run (limit : Nat) (s : St) : List Act → Option St
  | [] => some s
  | a :: as => match step limit s a with
    | none => none
    | some s' => run limit s' as

end Verif.Model.Start
