import Verif.Lit.Model
import Verif.Lit.Spec

/-!
# Quoted texts

`ToJsonString` (fastval.go:452-472) and the constants of a matcher (transform.go:298-301) turn a string into the text
`strconv.AppendQuote` writes, without the quotation marks, and compare those texts (`compareStrings`, fastval.go:582-588).  The
function belongs to Go's standard library; it is modelled here as it is documented there (`strconv/quote.go`:
`appendQuotedWith`, `appendEscapedRune`; `unicode/utf8`: `DecodeRuneInString`).  Which code points from U+0080 on are printable
(`strconv.IsPrint`, a table) is the parameter `tab`.
-/

namespace Verif.Quote

open Verif.Lit (encodeRune)

/-- A continuation byte of UTF-8 between two bounds. -/
def within (lo hi b : Nat) : Bool := decide (lo ≤ b ∧ b ≤ hi)

/-- `acceptRanges[first[b0] >> 4].lo` (`unicode/utf8`). -/
def secondLo (b0 : Nat) : Nat := if b0 = 0xE0 then 0xA0 else if b0 = 0xF0 then 0x90 else 0x80

/-- `acceptRanges[first[b0] >> 4].hi` (`unicode/utf8`). -/
def secondHi (b0 : Nat) : Nat := if b0 = 0xED then 0x9F else if b0 = 0xF4 then 0x8F else 0xBF

/-- `utf8.DecodeRuneInString` (`unicode/utf8`): the code point and the number of bytes; `none` is (`RuneError`, 1). -/
def decodeRune : List Nat → Option (Nat × Nat)
  | [] => none
  | b0 :: rest =>
    if b0 < 0x80 then some (b0, 1)
    else if b0 < 0xC2 then none
    else if b0 < 0xE0 then
      match rest with
      | b1 :: _ => if within 0x80 0xBF b1 then some ((b0 &&& 0x1F) <<< 6 ||| (b1 &&& 0x3F), 2) else none
      | _ => none
    else if b0 < 0xF0 then
      match rest with
      | b1 :: b2 :: _ =>
        if within (secondLo b0) (secondHi b0) b1 && within 0x80 0xBF b2 then
          some ((b0 &&& 0x0F) <<< 12 ||| (b1 &&& 0x3F) <<< 6 ||| (b2 &&& 0x3F), 3)
        else none
      | _ => none
    else if b0 < 0xF5 then
      match rest with
      | b1 :: b2 :: b3 :: _ =>
        if within (secondLo b0) (secondHi b0) b1 && within 0x80 0xBF b2 &&
            within 0x80 0xBF b3 then
          some ((b0 &&& 0x07) <<< 18 ||| (b1 &&& 0x3F) <<< 12 ||| (b2 &&& 0x3F) <<< 6 ||| (b3 &&& 0x3F), 4)
        else none
      | _ => none
    else none

/-- `lowerhex[n]` (`strconv/quote.go`). -/
def hexDigit (n : Nat) : Nat := if n < 10 then 48 + n else 87 + n

/-- `IsPrint` (`strconv/quote.go`); from U+0080 on it is the table `tab`. -/
def isPrint (tab : Nat → Bool) (r : Nat) : Bool := if r < 0x80 then decide (0x20 ≤ r ∧ r < 0x7F) else tab r

/-- The two hexadecimal digits of a byte. -/
def hex2 (b : Nat) : List Nat := [hexDigit (b / 16), hexDigit (b % 16)]

/-- Four hexadecimal digits. -/
def hex4 (r : Nat) : List Nat := hex2 (r / 256) ++ hex2 (r % 256)

/-- Eight hexadecimal digits. -/
def hex8 (r : Nat) : List Nat := hex4 (r / 65536) ++ hex4 (r % 65536)

/-- `appendEscapedRune` (`strconv/quote.go`) with the quotation mark `"`; only called with what `decodeRune` returns. -/
def escapedRune (tab : Nat → Bool) (r : Nat) : List Nat :=
  if r = 34 ∨ r = 92 then [92, r]
  else if isPrint tab r then encodeRune r
  else if r = 7 then [92, 97]
  else if r = 8 then [92, 98]
  else if r = 12 then [92, 102]
  else if r = 10 then [92, 110]
  else if r = 13 then [92, 114]
  else if r = 9 then [92, 116]
  else if r = 11 then [92, 118]
  else if r < 0x20 ∨ r = 0x7F then [92, 120] ++ hex2 r
  else if r < 0x10000 then [92, 117] ++ hex4 r
  else [92, 85] ++ hex8 r

/-- The loop of `appendQuotedWith` (`strconv/quote.go`); each round consumes at least one byte, so `fuel` = the length.
(Numbers from 256 on are no bytes and do not occur; the model copies them.) -/
def quoteLoop (tab : Nat → Bool) : Nat → List Nat → List Nat
  | 0, _ => []
  | _, [] => []
  | fuel + 1, b :: rest =>
    match decodeRune (b :: rest) with
    | none => (if b < 256 then [92, 120] ++ hex2 b else [b]) ++ quoteLoop tab fuel rest
    | some (r, w) => escapedRune tab r ++ quoteLoop tab fuel ((b :: rest).drop w)

/-- `strconv.AppendQuote(nil, s)` without its first and last byte, fastval.go:457-458 and 461-462. -/
def appendQuote (tab : Nat → Bool) (s : List Nat) : List Nat := quoteLoop tab s.length s

end Verif.Quote
