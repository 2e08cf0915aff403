import Verif.Model.Text
/-!
# Wide text of events

`to<std::wstring>` and `operator<<` on wide streams, `include/wtr/watcher.hpp` lines 303-309 and 346-351, with the
conversion of names spelled out: on POSIX systems `path::wstring()` reads the name as UTF-8 and throws
`filesystem_error` when it is not. The functions are `noexcept`, so the exception ends the program.
-/

namespace Verif.Model
open Verif

/-- Is it a byte `10xxxxxx`? -/
def isTrail (c : UInt8) : Bool := 0x80 ≤ c && c < 0xC0

/-- The code point at the beginning of `s` and what follows it (library behaviour: `std::codecvt_utf8<wchar_t>`, used by
`path::wstring()` at watcher.hpp:306). `none`: not UTF-8. -/
def readChar : Str → Option (Nat × Str)
  | [] => none
  | c1 :: s =>
    if c1 < 0x80 then some (c1.toNat, s)
    else if c1 < 0xC2 then none
    else if c1 < 0xE0 then
      match s with
      | c2 :: s => if isTrail c2 then some ((c1.toNat - 0xC0) * 64 + (c2.toNat - 0x80), s) else none
      | [] => none
    else if c1 < 0xF0 then
      match s with
      | c2 :: c3 :: s =>
        if isTrail c2 && isTrail c3 && !(c1 == 0xE0 && c2 < 0xA0) && !(c1 == 0xED && c2 ≥ 0xA0) then
          some ((c1.toNat - 0xE0) * 4096 + (c2.toNat - 0x80) * 64 + (c3.toNat - 0x80), s) else none
      | _ => none
    else if c1 < 0xF5 then
      match s with
      | c2 :: c3 :: c4 :: s =>
        if isTrail c2 && isTrail c3 && isTrail c4 && !(c1 == 0xF0 && c2 < 0x90) && !(c1 == 0xF4 && c2 ≥ 0x90) then
          some ((c1.toNat - 0xF0) * 262144 + (c2.toNat - 0x80) * 4096 + (c3.toNat - 0x80) * 64 + (c4.toNat - 0x80), s) else none
      | _ => none
    else none

/-- All code points; every one takes at least one byte, so `fuel` need not exceed the length. -/
def wideGo : (fuel : Nat) → Str → Option WStr
  | _, [] => some []
  | 0, _ :: _ => none
  | fuel + 1, s => match readChar s with
    | none => none
    | some (c, r) => (wideGo fuel r).map (UInt32.ofNat c :: ·)

/-- `path::wstring()`, used at watcher.hpp:306; `none` means that it throws. -/
def wideOf (s : Str) : Option WStr := wideGo s.length s

/-- `to<std::wstring>(event)` and `operator<<`, watcher.hpp:309, 346-351. `none` means that the program ends: the name of the
event (178) or of its associated event (187) cannot be converted, which throws inside a `noexcept` function (306). -/
def eventWide (ev : Event) : Option WStr :=
  if (wideOf ev.path).isSome && ev.assoc.all (fun a => (wideOf a.path).isSome) then
    some (eventWStr (fun s => (wideOf s).getD []) ev)
  else none

end Verif.Model
