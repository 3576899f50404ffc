import Verif.Token.Theorems

/-!
# Model of fastlitparse.go and fastlitescape.go

Bytes are natural numbers as in the tokenizer; the results of `ParseInt` are 64-bit vectors (Go `int64`).
-/

namespace Verif.Lit
open Verif.Token

/-! ### Integers -/

/-- The loop of `ParseInt`, fastlitparse.go:30-36; `none` is the early `return 0` on a non-digit.
`int64(c-'0')` is the digit value. -/
def parseDigits : BitVec 64 → List Nat → Option (BitVec 64)
  | v, [] => some v
  | v, c :: cs => if 48 ≤ c ∧ c ≤ 57 then parseDigits (10#64 * v + BitVec.ofNat 64 (c - 48)) cs else none

/-- `fastLitParser.ParseInt`, fastlitparse.go:17-43. -/
def parseInt (bs : List Nat) : BitVec 64 :=
  match bs with
  | [] => 0#64
  | c :: cs =>
    if c = 45 then
      match parseDigits 0#64 cs with
      | some v => -v
      | none => 0#64
    else
      match parseDigits 0#64 (c :: cs) with
      | some v => v
      | none => 0#64

/-- `fastLitParser.ParseString`, fastlitparse.go:50-52: `bytes[1 : len(bytes)-1]`; panics below two bytes. -/
def parseString (bs : List Nat) : Res (List Nat) :=
  if bs.length < 2 then .panic else .ok ((bs.drop 1).take (bs.length - 2))

/-! ### Escapes -/

/-- `h2I`, fastlitescape.go:30-40 (`none` is `badHex`). -/
def h2I (c : Nat) : Option Nat :=
  if 48 ≤ c ∧ c ≤ 57 then some (c - 48)
  else if 65 ≤ c ∧ c ≤ 70 then some (c - 65 + 10)
  else if 97 ≤ c ∧ c ≤ 102 then some (c - 97 + 10)
  else none

/-- `decodeSingleUnicodeEscape`, fastlitescape.go:46-60: the first two bytes are not looked at. -/
def decodeSingle : List Nat → Option Nat
  | _ :: _ :: a :: b :: c :: d :: _ =>
    match h2I a, h2I b, h2I c, h2I d with
    | some h1, some h2, some h3, some h4 => some ((h1 <<< 12) + (h2 <<< 8) + (h3 <<< 4) + h4)
    | _, _, _, _ => none
  | _ => none

/-- `isUTF16EncodedRune`, fastlitescape.go:65-67. -/
def isUTF16 (r : Nat) : Bool := decide (0xD800 ≤ r) && decide (r ≤ 0xDFFF)

/-- `combineUTF16Surrogates`, fastlitescape.go:24-26 (the arguments are at least the offsets subtracted when it is
called). -/
def combine (hi lo : Nat) : Nat := 0x10000 + ((hi - 0xD800) <<< 10) + (lo - 0xDC00)

/-- `decodeUnicodeEscape`, fastlitescape.go:69-86 (`none` is the length −1). -/
def decodeUnicode (inp : List Nat) : Option (Nat × Nat) :=
  match decodeSingle inp with
  | none => none
  | some r =>
    if r ≤ 0xFFFF ∧ isUTF16 r = false then some (r, 6)
    else
      match decodeSingle (inp.drop 6) with
      | none => none
      | some r2 => if r2 < 0xDC00 then none else some (combine r r2, 12)

/-- `backslashCharEscapeTable`, fastlitescape.go:89-98 (only indexed with these bytes). -/
def escTable (c : Nat) : Nat :=
  if c = 98 then 8 else if c = 102 then 12 else if c = 110 then 10 else if c = 114 then 13 else if c = 116 then 9 else c

/-- Go's `utf8.EncodeRune` (standard library, outside `/repo`), for non-negative runes: surrogates and values beyond
U+10FFFF become U+FFFD. -/
def encodeRune (r : Nat) : List Nat :=
  if r ≤ 0x7F then [r]
  else if r ≤ 0x7FF then [0xC0 ||| (r >>> 6), 0x80 ||| (r &&& 0x3F)]
  else if r > 0x10FFFF ∨ (0xD800 ≤ r ∧ r ≤ 0xDFFF) then [0xEF, 0xBF, 0xBD]
  else if r ≤ 0xFFFF then [0xE0 ||| (r >>> 12), 0x80 ||| ((r >>> 6) &&& 0x3F), 0x80 ||| (r &&& 0x3F)]
  else [0xF0 ||| (r >>> 18), 0x80 ||| ((r >>> 12) &&& 0x3F), 0x80 ||| ((r >>> 6) &&& 0x3F), 0x80 ||| (r &&& 0x3F)]

/-- `unescapeToUTF8`, fastlitescape.go:103-128.  `room` is the length of the output buffer; writing past it panics.
The result is the number of consumed bytes and the bytes written; `none` is (−1, −1). -/
def unescapeOne (inp : List Nat) (room : Nat) : Res (Option (Nat × List Nat)) :=
  match inp with
  | 92 :: e :: _ =>
    if e = 34 ∨ e = 92 ∨ e = 47 ∨ e = 98 ∨ e = 102 ∨ e = 110 ∨ e = 114 ∨ e = 116 then
      if room < 1 then .panic else .ok (some (2, [escTable e]))
    else if e = 117 then
      match decodeUnicode inp with
      | none => .ok none
      | some (r, n) => if room < (encodeRune r).length then .panic else .ok (some (n, encodeRune r))
    else .ok none
  | _ => .ok none

/-- `bytes.IndexByte(in, '\\')`. -/
def idxBackslash : List Nat → Option Nat
  | [] => none
  | c :: cs => if c = 92 then some 0 else (idxBackslash cs).map (· + 1)

/-- The loop of `unescapeJsonString`, fastlitescape.go:155-176.  `acc` is the part of `out` written so far and `cap`
the length of `out`, so `buf` has `cap - acc.length` bytes; slicing `in` or `buf` beyond its end panics.  `none` is the
error return. -/
def unescapeLoop (cap : Nat) : Nat → List Nat → List Nat → Res (Option (List Nat))
  | 0, _, _ => .stuck
  | fuel + 1, inp, acc =>
    if inp = [] then .ok (some acc)
    else
      unescapeOne inp (cap - acc.length) >>= fun r =>
      match r with
      | none => .ok none
      | some (n, bs) =>
        if inp.length < n then .panic
        else
          match idxBackslash (inp.drop n) with
          | none =>
            if cap - (acc ++ bs).length < (inp.drop n).length then .panic
            else .ok (some (acc ++ bs ++ inp.drop n))
          | some j =>
            if cap - (acc ++ bs).length < j then .panic
            else unescapeLoop cap fuel ((inp.drop n).drop j) (acc ++ bs ++ (inp.drop n).take j)

/-- `unescapeJsonString`, fastlitescape.go:137-180.  The output buffer has the length of the input in both cases
(allocated, or a slice of the scratch buffer). -/
def unescape (inp : List Nat) : Res (Option (List Nat)) :=
  match idxBackslash inp with
  | none => .ok (some inp)
  | some i => unescapeLoop inp.length (inp.length + 1) (inp.drop i) (inp.take i)

/-- `fastLitParser.ParseEscString`, fastlitparse.go:58-61: the error is dropped and the result is then nil, an empty
slice. -/
def parseEscString (bs : List Nat) : Res (List Nat) :=
  if bs.length < 2 then .panic
  else unescape ((bs.drop 1).take (bs.length - 2)) >>= fun r => .ok (r.getD [])

end Verif.Lit
