/-!
# What integer and string literals denote (specification)
-/

namespace Verif.Lit

/-- Positional value of a string of ASCII digits. -/
def decVal : List Nat → Nat
  | [] => 0
  | c :: cs => (c - 48) * 10 ^ cs.length + decVal cs

/-- Value of an integer literal. -/
def intVal : List Nat → Int
  | 0x2D :: ds => - (decVal ds : Int)
  | ds => decVal ds

/-- RFC 3629: UTF-8 bytes of a code point. -/
def utf8 (n : Nat) : List Nat :=
  if n < 0x80 then [n]
  else if n < 0x800 then [0xC0 + n / 64, 0x80 + n % 64]
  else if n < 0x10000 then [0xE0 + n / 4096, 0x80 + n / 64 % 64, 0x80 + n % 64]
  else [0xF0 + n / 262144, 0x80 + n / 4096 % 64, 0x80 + n / 64 % 64, 0x80 + n % 64]

/-- Value of a hexadecimal digit. -/
def hexVal (c : Nat) : Nat := if c ≤ 0x39 then c - 0x30 else if c ≤ 0x46 then c - 0x37 else c - 0x57

def IsHex (c : Nat) : Prop := (0x30 ≤ c ∧ c ≤ 0x39) ∨ (0x41 ≤ c ∧ c ≤ 0x46) ∨ (0x61 ≤ c ∧ c ≤ 0x66)

/-- Four hexadecimal digits. -/
structure Hex4 where
  a : Nat
  b : Nat
  c : Nat
  d : Nat

namespace Hex4
def text (h : Hex4) : List Nat := [h.a, h.b, h.c, h.d]
def WF (h : Hex4) : Prop := IsHex h.a ∧ IsHex h.b ∧ IsHex h.c ∧ IsHex h.d
def val (h : Hex4) : Nat := ((hexVal h.a * 16 + hexVal h.b) * 16 + hexVal h.c) * 16 + hexVal h.d
end Hex4

/-- The spelling of one character of a string literal (RFC 8259 §7): a byte as is, a two-character escape, a
six-character escape, or a surrogate pair. -/
inductive Ch where
  | plain (c : Nat)
  | esc (c : Nat)
  | uni (h : Hex4)
  | pair (hi lo : Hex4)

namespace Ch

def text : Ch → List Nat
  | .plain c => [c]
  | .esc c => [0x5C, c]
  | .uni h => 0x5C :: 0x75 :: h.text
  | .pair hi lo => 0x5C :: 0x75 :: (hi.text ++ 0x5C :: 0x75 :: lo.text)

/-- The spelling is allowed: no raw control character, quotation mark or backslash; `\u` escapes are not surrogates
on their own; pairs are a high and a low surrogate. -/
def WF : Ch → Prop
  | .plain c => 0x20 ≤ c ∧ c ≠ 0x22 ∧ c ≠ 0x5C
  | .esc c => c = 0x22 ∨ c = 0x5C ∨ c = 0x2F ∨ c = 0x62 ∨ c = 0x66 ∨ c = 0x6E ∨ c = 0x72 ∨ c = 0x74
  | .uni h => h.WF ∧ (h.val < 0xD800 ∨ 0xDFFF < h.val)
  | .pair hi lo => hi.WF ∧ lo.WF ∧ (0xD800 ≤ hi.val ∧ hi.val ≤ 0xDBFF) ∧ (0xDC00 ≤ lo.val ∧ lo.val ≤ 0xDFFF)

/-- The bytes denoted. -/
def bytes : Ch → List Nat
  | .plain c => [c]
  | .esc c =>
    if c = 0x62 then [0x08] else if c = 0x66 then [0x0C] else if c = 0x6E then [0x0A] else if c = 0x72 then [0x0D]
    else if c = 0x74 then [0x09] else [c]
  | .uni h => utf8 h.val
  | .pair hi lo => utf8 (0x10000 + (hi.val - 0xD800) * 0x400 + (lo.val - 0xDC00))

end Ch

/-- Text between the quotation marks. -/
def chText (cs : List Ch) : List Nat := cs.flatMap Ch.text

/-- Bytes denoted. -/
def chBytes (cs : List Ch) : List Nat := cs.flatMap Ch.bytes

/-- Does the text contain an escape? -/
def chHasEsc : List Ch → Bool
  | [] => false
  | .plain _ :: cs => chHasEsc cs
  | _ :: _ => true

end Verif.Lit
