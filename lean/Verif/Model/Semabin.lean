import Verif.Base
/-!
# The stop signal

Models `class semabin`, `include/wtr/watcher.hpp` lines 387-466, on the three platforms.
-/

namespace Verif.Model
open Verif

/-- `enum state { pending, released, error }`, watcher.hpp:389. -/
inductive SemState where
  | pending | released | error
deriving DecidableEq, Repr

/-- The Linux signal, watcher.hpp:392-434: the atomic `is` and the eventfd (a counter in semaphore
mode). `fdOk` says whether `eventfd()` succeeded. Simplification: the counter cannot overflow
(at most one successful write per `release`, and 2^64 - 2 of them would be needed). -/
structure SB where
  is : SemState := .pending
  count : Nat := 0
  fdOk : Bool := true
deriving DecidableEq, Repr

namespace SB

/-- `eventfd_write(fd, 1)`, watcher.hpp:403: fails only on a bad descriptor. -/
def writeEv (s : SB) : SemState × SB :=
  if s.fdOk then (.released, { s with count := s.count + 1 }) else (.error, s)

/-- `eventfd_read`, watcher.hpp:420-425, non-blocking and in semaphore mode: takes one from a positive
counter, otherwise `EAGAIN`; a bad descriptor is an error. -/
def readEv (s : SB) : SemState × SB :=
  if !s.fdOk then (.error, s)
  else if s.count > 0 then (.released, { s with count := s.count - 1 })
  else (.pending, s)

/-- `release()`, watcher.hpp:399-413, run without interference. The lifecycle model uses the same
pieces with a step between each. -/
def release (s : SB) : SemState × SB :=
  if s.is = .released then (.released, s)
  else
    let (r, s') := s.writeEv
    (r, { s' with is := r })

/-- `state()`, watcher.hpp:415-432, run without interference. -/
def state (s : SB) : SemState × SB :=
  if s.is = .pending then (.pending, s)
  else
    let (r, s') := s.readEv
    (r, { s' with is := r })

end SB

/-- The Darwin signal, watcher.hpp:436-457: an atomic and a dispatch semaphore (its count). -/
structure DarwinSem where
  is : SemState := .pending
  signals : Nat := 0
deriving DecidableEq, Repr

namespace DarwinSem

/-- `release()`, watcher.hpp:440-450: compare-and-swap from pending to released; signals the semaphore
only when the swap happened; always answers released. -/
def release (s : DarwinSem) : SemState × DarwinSem :=
  if s.is = .pending then (.released, { is := .released, signals := s.signals + 1 })
  else (.released, s)

/-- `state()`, watcher.hpp:452-455. -/
def state (s : DarwinSem) : SemState × DarwinSem := (s.is, s)

end DarwinSem

/-- The portable signal, watcher.hpp:459-465: a plain atomic flag. -/
structure FlagSem where
  is : SemState := .pending
deriving DecidableEq, Repr

namespace FlagSem

/-- `release()`, watcher.hpp:461. -/
def release (_ : FlagSem) : SemState × FlagSem := (.released, { is := .released })

/-- `state()`, watcher.hpp:463. -/
def state (s : FlagSem) : SemState × FlagSem := (s.is, s)

end FlagSem

end Verif.Model
