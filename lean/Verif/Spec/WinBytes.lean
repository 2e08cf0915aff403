import Verif.Spec.Windows
import Verif.Spec.Polled
import Verif.Model.WinBytes
/-!
# What a user is told during a whole watch on Windows (C126)
-/

namespace Verif.Spec.WinBytes
open Verif Verif.Model Verif.Model.Windows Verif.Model.Poll Verif.Spec.Windows

/-- How the system takes the request for further changes. -/
inductive Request where
  | queued | pending | refused
deriving DecidableEq, Repr

/-- What happens while watching: nothing for a while; the system hands over a batch of notifications (paths are
directories or not, and then further changes are asked for); it drops the notifications because there are too many; or
the outstanding request fails. -/
inductive Happening where
  | quiet
  | batch (rs : List Rec) (isDir : WStr → Option Bool) (next : Request)
  | overflow
  | failure

/-- What a batch is told as: all that `ReportsAll` lists, if it has 16 bytes or more; otherwise nothing. -/
def BatchTold (base : WStr) (rs : List Rec) (isDir : WStr → Option Bool) (o : List Said) : Prop :=
  if 16 ≤ (encode rs).length then ∃ evs, ReportsAll isDir base rs evs ∧ o = evs.map .ev else o = []

/-- What the answer to a request is told as. -/
def requestTold : Request → List Said
  | .queued => []
  | .pending => [.readPending]
  | .refused => [.readFailed]

/-- What is told in the course of a watch. Once changes are no longer asked for, nothing happens any more. -/
inductive Told (base : WStr) : List Happening → List Said → Prop
  | nil : Told base [] []
  | quiet (hs : List Happening) (o : List Said) : Told base hs o → Told base (.quiet :: hs) o
  | batch (rs : List Rec) (isDir : WStr → Option Bool) (hs : List Happening) (o o' : List Said) : BatchTold base rs isDir o →
      Told base hs o' → Told base (.batch rs isDir .queued :: hs) (o ++ o')
  | last (rs : List Rec) (isDir : WStr → Option Bool) (next : Request) (hs : List Happening) (o : List Said) : BatchTold base rs isDir o →
      next ≠ .queued → (∀ h ∈ hs, h = .quiet) → Told base (.batch rs isDir next :: hs) (o ++ requestTold next)
  | overflow (hs : List Happening) : (∀ h ∈ hs, h = .quiet) → Told base (.overflow :: hs) []
  | failure (hs : List Happening) : (∀ h ∈ hs, h = .quiet) → Told base (.failure :: hs) []

/-- The same with the first request. -/
def ToldFrom (base : WStr) (first : Request) (hs : List Happening) (o : List Said) : Prop :=
  match first with
  | .queued => Told base hs o
  | r => (∀ h ∈ hs, h = .quiet) ∧ o = requestTold r

/-! ### The system's answers -/

/-- How a read's answer takes the request; a read that is queued has no bytes to offer yet. -/
inductive Takes : ByteRead → Request → Prop
  | queued (m : List UInt8) : Takes (.ok 0 m) .queued
  | pending : Takes .pendingError .pending
  | refused : Takes .otherError .refused

/-- What happens, from the system's answers: a batch is the bytes of its records, with anything behind them in the buffer. -/
inductive Account : List ByteAns → List Happening → Prop
  | nil : Account [] []
  | quiet (is hs) : Account is hs → Account (.completion none :: is) (.quiet :: hs)
  | batch (rs : List Rec) (rest : List UInt8) (isDir : WStr → Option Bool) (a : ByteRead) (next : Request) (is hs) :
      rs ≠ [] → (∀ r ∈ rs, r.Fits) → Takes a next → Account is hs →
      Account (.completion (some ((encode rs).length, encode rs ++ rest)) :: .read isDir a :: .none :: is) (.batch rs isDir next :: hs)
  | overflow (m : List UInt8) (is hs) : Account is hs → Account (.completion (some (0, m)) :: .none :: is) (.overflow :: hs)
  | failure (is hs) : Account is hs → Account (.failed :: is) (.failure :: hs)

/-- The answers are of the documented kind: reads are queued or fail, a completed read is empty or has well-formed
records. -/
def Documented : ByteAns → Prop
  | .opened _ (.ok n _) => n = 0
  | .read _ (.ok n _) => n = 0
  | .completion (some (n, m)) => n = 0 ∨ ∃ (rs : List Rec) (rest : List UInt8), rs ≠ [] ∧ (∀ r ∈ rs, r.Fits) ∧ n = (encode rs).length ∧ m = encode rs ++ rest
  | _ => True

end Verif.Spec.WinBytes
