/-!
# How strings are ordered (specification)
-/

namespace Verif.Quote

/-- Unicode scalar values. -/
def Scalar (c : Nat) : Prop := c < 0xD800 ∨ (0xE000 ≤ c ∧ c < 0x110000)

instance (c : Nat) : Decidable (Scalar c) := by unfold Scalar; infer_instance

/-- The characters written with a backslash: quotation mark, backslash, control characters and, from U+0080 on, those not
printable. -/
def Escaped (tab : Nat → Bool) (c : Nat) : Prop := c = 0x22 ∨ c = 0x5C ∨ c < 0x20 ∨ c = 0x7F ∨ (0x80 ≤ c ∧ tab c = false)

instance (tab : Nat → Bool) (c : Nat) : Decidable (Escaped tab c) := by unfold Escaped; infer_instance

/-- The character behind the backslash. -/
def letter (c : Nat) : Nat :=
  if c = 0x22 then 0x22 else if c = 0x5C then 0x5C
  else if c = 7 then 0x61 else if c = 8 then 0x62 else if c = 12 then 0x66 else if c = 10 then 0x6E
  else if c = 13 then 0x72 else if c = 9 then 0x74 else if c = 11 then 0x76
  else if c < 0x80 then 0x78 else if c < 0x10000 then 0x75 else 0x55

/-- The place of a character: characters written with a backslash stand where the backslash stands (between `[` and `]`), ordered
by the character behind the backslash and then by code point; the others by code point. -/
def place (tab : Nat → Bool) (c : Nat) : Nat :=
  if Escaped tab c then 0x5C * 2 ^ 40 + letter c * 2 ^ 32 + c else c * 2 ^ 40

/-- Lexicographic order, with the characters ordered by `key`: −1, 0 or 1. -/
def lexBy {α : Type} (key : α → Nat) : List α → List α → Int
  | [], [] => 0
  | [], _ :: _ => -1
  | _ :: _, [] => 1
  | a :: as, b :: bs => if key a < key b then -1 else if key b < key a then 1 else lexBy key as bs

end Verif.Quote
