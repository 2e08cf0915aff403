import Verif.Model.Event
/-!
# Text of events

Models `include/wtr/watcher.hpp` lines 150-353: names of the enumerators, `num_to_str`, the JSON-like
text of an event (narrow and wide), and the command line program's `json`
(`src/wtr/watcher/main.cpp` lines 92-105).
-/

namespace Verif.Model
open Verif

/-- `wtr_effect_type_to_str_lit`, watcher.hpp:150-159: a `switch` over the underlying `int`, with a
`default` for values that are no enumerator; `lit` is the macro's literal prefix (`""` or `L""`). -/
def effectNameOfInt {c : Type} (lit : Str → List c) (code : Int) : List c :=
  if code = 0 then lit b!"rename"
  else if code = 1 then lit b!"modify"
  else if code = 2 then lit b!"create"
  else if code = 3 then lit b!"destroy"
  else if code = 4 then lit b!"owner"
  else if code = 5 then lit b!"other"
  else lit b!"other"

/-- `wtr_path_type_to_str_lit`, watcher.hpp:161-170. -/
def pathNameOfInt {c : Type} (lit : Str → List c) (code : Int) : List c :=
  if code = 0 then lit b!"dir"
  else if code = 1 then lit b!"file"
  else if code = 2 then lit b!"hard_link"
  else if code = 3 then lit b!"sym_link"
  else if code = 4 then lit b!"watcher"
  else if code = 5 then lit b!"other"
  else lit b!"other"

/-- A wide code unit string (`wchar_t` on POSIX). -/
abbrev WStr := List UInt32

/-- Zero-extension of every byte, watcher.hpp:239-242, and `L"..."` literals of ASCII text. -/
def widen (s : Str) : WStr := s.map (fun b => UInt32.ofNat b.toNat)

/-- `to<std::string>(effect_type)`, watcher.hpp:301 (and the string view, 296). -/
def EffectType.str (e : EffectType) : Str := effectNameOfInt id e.toNat
/-- `to<std::string>(path_type)`, watcher.hpp:299 (and the string view, 297). -/
def PathType.str (p : PathType) : Str := pathNameOfInt id p.toNat
/-- `to<std::wstring>(effect_type)`, watcher.hpp:308 (and 303). -/
def EffectType.wstr (e : EffectType) : WStr := effectNameOfInt widen e.toNat
/-- `to<std::wstring>(path_type)`, watcher.hpp:305 (and 304). -/
def PathType.wstr (p : PathType) : WStr := pathNameOfInt widen p.toNat

/-- Decimal digits of a natural number, most significant first; `fuel` bounds the number of digits.
Library behaviour of `std::to_chars` (watcher.hpp:231). -/
def natChars : (fuel : Nat) → Nat → Str
  | 0, _ => []
  | fuel + 1, n =>
    if n < 10 then [UInt8.ofNat (48 + n)]
    else natChars fuel (n / 10) ++ [UInt8.ofNat (48 + n % 10)]

/-- `std::to_chars` for a `long long`: an optional minus sign and the digits. Twenty digits are more
than any 64-bit value has. -/
def toChars (n : Int) : Str :=
  if n < 0 then 45 :: natChars 20 n.natAbs else natChars 20 n.natAbs

/-- `std::numeric_limits<long long>::digits10 + 1`, watcher.hpp:229. -/
def numBufLen : Nat := 18 + 1

/-- `num_to_str<char>`, watcher.hpp:208-244: the digits are written into a zero-initialised buffer of
`numBufLen` bytes; if they do not fit the result is empty, otherwise the *whole buffer* becomes the
string (line 236). -/
def numToStr (n : Int) : Str :=
  let cs := toChars n
  if cs.length > numBufLen then []
  else cs ++ List.replicate (numBufLen - cs.length) 0

/-- `num_to_str<wchar_t>`, watcher.hpp:238-243. -/
def numToWStr (n : Int) : WStr :=
  let cs := toChars n
  if cs.length > numBufLen then []
  else widen (cs ++ List.replicate (numBufLen - cs.length) 0)

/-- The macro `wtr_event_to_str_cls_as_json`, watcher.hpp:172-197, parameterised (like the macro) by
the character type: `lit` embeds the literals, `num` is `num_to_str`, `pth` is
`path::string`/`path::wstring`; `to<Cls>(enumerator)` is the switch at the same character type. Only the first level of association is printed (lines 182-195). -/
def eventText {c : Type} (lit : Str → List c) (num : Int → List c) (pth : Str → List c)
    (ev : Event) : List c :=
  let q (s : List c) := lit b!"\"" ++ s ++ lit b!"\""
  q (num ev.time) ++ lit b!":{"
    ++ lit b!"\"effect_type\":" ++ q (effectNameOfInt lit ev.effect.toNat) ++ lit b!","
    ++ lit b!"\"path_name\":" ++ q (pth ev.path) ++ lit b!","
    ++ lit b!"\"path_type\":" ++ q (pathNameOfInt lit ev.ptype.toNat)
    ++ (match ev.assoc with
        | none => []
        | some a =>
          lit b!",\"associated\"" ++ lit b!":{"
            ++ lit b!"\"effect_type\":" ++ q (effectNameOfInt lit a.effect.toNat) ++ lit b!","
            ++ lit b!"\"path_name\":" ++ q (pth a.path) ++ lit b!","
            ++ lit b!"\"path_type\":" ++ q (pathNameOfInt lit a.ptype.toNat) ++ lit b!"}")
    ++ lit b!"}"

/-- `to<std::string>(event)` and `operator<<`, watcher.hpp:302, 346-351. -/
def eventStr (ev : Event) : Str := eventText id numToStr id ev

/-- `to<std::wstring>(event)`, watcher.hpp:309. `wide` is `path::wstring()`, a library conversion left
as a parameter. -/
def eventWStr (wide : Str → WStr) (ev : Event) : WStr := eventText widen numToWStr wide ev

/-- The command line program's `json`, src/wtr/watcher/main.cpp:92-105: recursive over associated
events; the time is printed without quotes. -/
def cliJson : Event → Str
  | .mk p e t tm assoc =>
    let q (s : Str) := b!"\"" ++ s ++ b!"\""
    b!"{\"path_type\":" ++ q t.str
      ++ b!",\"path_name\":" ++ q p
      ++ b!",\"effect_type\":" ++ q e.str
      ++ b!",\"effect_time\":" ++ numToStr tm
      ++ b!",\"associated\":"
      ++ (match assoc with
          | none => b!"null"
          | some a => cliJson a)
      ++ b!"}"

end Verif.Model
