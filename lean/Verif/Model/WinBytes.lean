import Verif.Model.Polled
/-!
# Watching on Windows from the bytes the system writes

The back end of `include/wtr/watcher.hpp` lines 1939-1970 once more, for the two threads of `Model/Polled.lean`, but with the
buffer in place of the events of a batch: `do_event_send` (`Model/Windows.lean`, `sendBatch`) reads the bytes the system
left there, and `std::filesystem::is_directory` is answered when it does.
-/

namespace Verif.Model.Poll
open Verif Verif.Model Verif.Model.Windows

/-- The parts of the proxy that matter, watcher.hpp:1751-1759: `is_valid`, `event_buf_len_ready`, `event_buf`, and whether
the system holds a read that is not completed. -/
structure WinB where
  valid : Bool := true
  ready : Nat := 0
  mem : List UInt8 := []
  armed : Bool := false
deriving DecidableEq, Repr

/-- The answer of `ReadDirectoryChangesW`, watcher.hpp:1805-1820, with what is then in the buffer. -/
inductive ByteRead where
  | ok (ready : Nat) (mem : List UInt8)
  | pendingError
  | otherError
deriving DecidableEq, Repr

/-- `do_event_recv`, watcher.hpp:1797-1840: the proxy and what is told. -/
def recvB (w : WinB) (a : ByteRead) : WinB × List Said :=
  let w := { w with ready := 0 }
  if w.valid then
    match a with
    | .ok n m => ({ w with ready := n, mem := m, armed := true }, [])
    | .pendingError => ({ w with valid := false }, [.readPending])
    | .otherError => (w, [.readFailed])
  else (w, [])

/-- `do_event_send`, watcher.hpp:1842-1933. `none`: it reads past the buffer or does not end (each record is further on in
the buffer than the one before, so more turns than bytes are possible only if it does not end). -/
def sendB (isDir : WStr → Option Bool) (base : WStr) (w : WinB) : Option (List Said) :=
  if w.valid then
    match sendBatch isDir base w.mem w.ready (w.mem.length + 1) with
    | some (.ok evs) => some (evs.map .ev)
    | _ => none
  else some []

/-- What the system answers: whether the proxy is valid and the first read (1947-1949), nothing to be answered, what
`is_directory` says in the loop at 1950, a completion with its length and the buffer or a failed read (1954-1960), what
`is_directory` says and the next read (1962-1963). -/
inductive ByteAns where
  | opened (valid : Bool) (a : ByteRead)
  | none
  | again (isDir : WStr → Option Bool)
  | completion (c : Option (Nat × List UInt8))
  | failed
  | read (isDir : WStr → Option Bool) (a : ByteRead)

/-- Windows, watcher.hpp:1939-1970, with the watched path. -/
def winBytes (base : WStr) : Backend where
  ε := Said
  σ := WinB × WinAt
  ι := ByteAns
  start
    | .opened false _ => some ([], .inr false)                     -- 1948
    | .opened true a =>                                            -- 1949
      let r := recvB {} a
      some (r.2, .inl (r.1, .first))
    | _ => none
  turn s i :=
    let (w, at') := s
    match at', i with
    | .first, .none =>                                             -- 1950, the condition is false
      if w.valid && w.ready != 0 then Option.none else some ([], .inl (w, .outer))
    | .first, .again isDir =>                                      -- 1950
      if w.valid && w.ready != 0 then (sendB isDir base w).map fun es => (es, .inl (w, .first)) else Option.none
    | .outer, .completion Option.none => some ([], .inl (w, .outer))
    | .outer, .completion (some (n, m)) =>                         -- 1954-1960
      if w.armed then some ([], .inl ({ w with armed := false, ready := n, mem := m }, .inner)) else Option.none
    | .outer, .failed => if w.armed then some ([], .inl ({ w with armed := false }, .outer)) else Option.none
    | .inner, .none =>                                             -- 1961, the condition is false
      if w.valid && w.ready != 0 then Option.none else some ([], .inl (w, .outer))
    | .inner, .read isDir a =>                                     -- 1962-1963
      if w.valid && w.ready != 0 then
        (sendB isDir base w).map fun es => (es ++ (recvB w a).2, .inl ((recvB w a).1, .inner))
      else Option.none
    | _, _ => Option.none
  head s := s.2 == .outer

end Verif.Model.Poll
