import Verif.Base
/-!
# A small strict JSON reader (RFC 8259)

Independent of the model.  It covers the part of JSON the program writes: objects, strings with all
escapes (`\u` ones are decoded to UTF-8), integers and `null`, without insignificant white space.  Everything else
(arrays, floats, ...) is rejected, so "`parse s = some v`" is a stronger statement than
"`s` is JSON for `v`".  Bytes of 0x80 and above are passed through; UTF-8 validity of names is not
examined.
-/

namespace Verif.Spec
open Verif

inductive Json where
  | null
  | num (n : Int)
  | str (s : Str)
  | obj (members : List (Str × Json))
deriving Repr

namespace Json

def hexVal (c : UInt8) : Option Nat :=
  if 48 ≤ c && c ≤ 57 then some (c.toNat - 48)
  else if 97 ≤ c && c ≤ 102 then some (c.toNat - 87)
  else if 65 ≤ c && c ≤ 70 then some (c.toNat - 55)
  else none

def hex4 (a b c d : UInt8) : Option Nat :=
  match hexVal a, hexVal b, hexVal c, hexVal d with
  | some a, some b, some c, some d => some (((a * 16 + b) * 16 + c) * 16 + d)
  | _, _, _, _ => none

/-- UTF-8. -/
def utf8Enc (n : Nat) : Str :=
  if n < 0x80 then [UInt8.ofNat n]
  else if n < 0x800 then [UInt8.ofNat (0xC0 + n / 64), UInt8.ofNat (0x80 + n % 64)]
  else if n < 0x10000 then [UInt8.ofNat (0xE0 + n / 4096), UInt8.ofNat (0x80 + n / 64 % 64), UInt8.ofNat (0x80 + n % 64)]
  else [UInt8.ofNat (0xF0 + n / 262144), UInt8.ofNat (0x80 + n / 4096 % 64), UInt8.ofNat (0x80 + n / 64 % 64), UInt8.ofNat (0x80 + n % 64)]

/-- The rest of a string literal after its opening quote: contents and what follows the closing
quote. Control characters must not appear raw. -/
def strBody : Str → Option (Str × Str)
  | [] => none
  | 34 :: rest => some ([], rest)
  | 92 :: 34 :: rest => (strBody rest).map fun (s, r) => (34 :: s, r)
  | 92 :: 92 :: rest => (strBody rest).map fun (s, r) => (92 :: s, r)
  | 92 :: 47 :: rest => (strBody rest).map fun (s, r) => (47 :: s, r)
  | 92 :: 98 :: rest => (strBody rest).map fun (s, r) => (8 :: s, r)
  | 92 :: 102 :: rest => (strBody rest).map fun (s, r) => (12 :: s, r)
  | 92 :: 110 :: rest => (strBody rest).map fun (s, r) => (10 :: s, r)
  | 92 :: 114 :: rest => (strBody rest).map fun (s, r) => (13 :: s, r)
  | 92 :: 116 :: rest => (strBody rest).map fun (s, r) => (9 :: s, r)
  | 92 :: 117 :: a :: b :: c :: d :: rest =>
    match hex4 a b c d with
    | none => none
    | some n =>
      if 0xD800 ≤ n && n < 0xDC00 then
        match rest with
        | 92 :: 117 :: e :: f :: g :: h :: rest' =>
          match hex4 e f g h with
          | none => none
          | some m =>
            if 0xDC00 ≤ m && m < 0xE000 then
              (strBody rest').map fun (s, r) => (utf8Enc (0x10000 + (n - 0xD800) * 1024 + (m - 0xDC00)) ++ s, r)
            else none
        | _ => none
      else if 0xDC00 ≤ n && n < 0xE000 then none
      else (strBody rest).map fun (s, r) => (utf8Enc n ++ s, r)
  | 92 :: _ => none
  | c :: rest => if c < 32 then none else (strBody rest).map fun (s, r) => (c :: s, r)

def isDigit (c : UInt8) : Bool := 48 ≤ c && c ≤ 57

/-- Value of a run of decimal digits. -/
def digitsVal (ds : Str) : Nat := ds.foldl (fun acc c => acc * 10 + (c.toNat - 48)) 0

/-- An unsigned integer literal: a single `0` or digits without a leading zero. -/
def natLit (s : Str) : Option (Nat × Str) :=
  let ds := s.takeWhile isDigit
  let rest := s.dropWhile isDigit
  if ds.isEmpty then none
  else if ds.head? == some 48 && ds.length != 1 then none
  else some (digitsVal ds, rest)

def intLit : Str → Option (Int × Str)
  | 45 :: s => (natLit s).map fun (n, r) => (-(n : Int), r)
  | s => (natLit s).map fun (n, r) => ((n : Int), r)

mutual
/-- One value at the front of the input. `fuel` bounds nesting plus member count. -/
def value : (fuel : Nat) → Str → Option (Json × Str)
  | 0, _ => none
  | _ + 1, 110 :: 117 :: 108 :: 108 :: rest => some (.null, rest)
  | _ + 1, 34 :: rest => (strBody rest).map fun (s, r) => (.str s, r)
  | _ + 1, 123 :: 125 :: rest => some (.obj [], rest)
  | fuel + 1, 123 :: rest => (members fuel rest).map fun (ms, r) => (.obj ms, r)
  | _ + 1, s => (intLit s).map fun (n, r) => (.num n, r)

/-- Members of an object up to and including the closing brace. -/
def members : (fuel : Nat) → Str → Option (List (Str × Json) × Str)
  | fuel + 1, 34 :: rest =>
    match strBody rest with
    | some (k, 58 :: r) =>
      match value fuel r with
      | some (v, 125 :: r') => some ([(k, v)], r')
      | some (v, 44 :: r') => (members fuel r').map fun (ms, r'') => ((k, v) :: ms, r'')
      | _ => none
    | _ => none
  | _, _ => none
end

/-- A complete JSON document. -/
def parse (s : Str) : Option Json :=
  match value (s.length + 1) s with
  | some (v, []) => some v
  | _ => none

end Json

/-- Bytes that JSON lets a string contain unescaped: not a control character, not `"`, not `\`. -/
def PlainText (s : Str) : Prop := ∀ c ∈ s, 32 ≤ c ∧ c ≠ 34 ∧ c ≠ 92

instance (s : Str) : Decidable (PlainText s) := by unfold PlainText; infer_instance

end Verif.Spec
