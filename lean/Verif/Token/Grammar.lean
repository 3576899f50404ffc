import Verif.Token.Model

/-!
# RFC 8259 grammar of tokens, and documents with layout (specification)
-/

namespace Verif.Token

/-- RFC 8259 §2 whitespace. -/
def IsWs (w : List Nat) : Prop := ∀ c ∈ w, c = 0x20 ∨ c = 0x09 ∨ c = 0x0A ∨ c = 0x0D

/-- RFC 8259 §6 digits. -/
def Digits (w : List Nat) : Prop := ∀ c ∈ w, 0x30 ≤ c ∧ c ≤ 0x39

/-- `HEXDIG` (either case). -/
def Hex (c : Nat) : Prop := (0x30 ≤ c ∧ c ≤ 0x39) ∨ (0x41 ≤ c ∧ c ≤ 0x46) ∨ (0x61 ≤ c ∧ c ≤ 0x66)

/-- Second character of a two-character escape (`"` `\` `/` `b` `f` `n` `r` `t`). -/
def EscChar (c : Nat) : Prop :=
  c = 0x22 ∨ c = 0x5C ∨ c = 0x2F ∨ c = 0x62 ∨ c = 0x66 ∨ c = 0x6E ∨ c = 0x72 ∨ c = 0x74

/-- RFC 8259 §7, between the quotation marks; the flag tells whether an escape occurs. -/
inductive StrBody : List Nat → Bool → Prop where
  | nil : StrBody [] false
  | plain {c w e} (h1 : 0x20 ≤ c) (h2 : c ≠ 0x22) (h3 : c ≠ 0x5C) (h : StrBody w e) : StrBody (c :: w) e
  | esc {c w e} (h1 : EscChar c) (h : StrBody w e) : StrBody (0x5C :: c :: w) true
  | uni {a b c d w e} (ha : Hex a) (hb : Hex b) (hc : Hex c) (hd : Hex d) (h : StrBody w e) :
      StrBody (0x5C :: 0x75 :: a :: b :: c :: d :: w) true

/-- `zero / ( digit1-9 *DIGIT )`. -/
def IsUInt (w : List Nat) : Prop :=
  w = [0x30] ∨ ∃ c ds, w = c :: ds ∧ (0x31 ≤ c ∧ c ≤ 0x39) ∧ Digits ds

/-- `[ minus ] int`. -/
def IsInt (w : List Nat) : Prop := IsUInt w ∨ ∃ u, w = 0x2D :: u ∧ IsUInt u

/-- `[ frac ]`. -/
def IsFrac (w : List Nat) : Prop := w = [] ∨ ∃ ds, w = 0x2E :: ds ∧ ds ≠ [] ∧ Digits ds

/-- `[ exp ]`. -/
def IsExp (w : List Nat) : Prop :=
  w = [] ∨ ∃ e sg ds, w = e :: (sg ++ ds) ∧ (e = 0x65 ∨ e = 0x45) ∧ (sg = [] ∨ sg = [0x2B] ∨ sg = [0x2D]) ∧
    ds ≠ [] ∧ Digits ds

/-- Text of each token class. -/
inductive TokText : Tok → List Nat → Prop where
  | objectStart : TokText .objectStart [0x7B]
  | objectEnd : TokText .objectEnd [0x7D]
  | keyDelim : TokText .objectKeyDelim [0x3A]
  | arrayStart : TokText .arrayStart [0x5B]
  | arrayEnd : TokText .arrayEnd [0x5D]
  | listDelim : TokText .listDelim [0x2C]
  | null : TokText .null [0x6E, 0x75, 0x6C, 0x6C]
  | tru : TokText .tru [0x74, 0x72, 0x75, 0x65]
  | fals : TokText .fals [0x66, 0x61, 0x6C, 0x73, 0x65]
  | string {b} (h : StrBody b false) : TokText .string (0x22 :: (b ++ [0x22]))
  | escString {b} (h : StrBody b true) : TokText .escString (0x22 :: (b ++ [0x22]))
  | integer {w} (h : IsInt w) : TokText .integer w
  | number {i f x} (hi : IsInt i) (hf : IsFrac f) (hx : IsExp x) (hn : f ++ x ≠ []) :
      TokText .number (i ++ f ++ x)

/-- What may follow a token: a number must not be followed by a character that could continue it. -/
def Follow (ty : Tok) (rest : List Nat) : Prop :=
  (ty = .integer ∨ ty = .number) →
    ∀ c ∈ rest.head?, ¬ (0x30 ≤ c ∧ c ≤ 0x39) ∧ c ≠ 0x2E ∧ c ≠ 0x65 ∧ c ≠ 0x45

/-! ### Documents with layout -/

mutual
  /-- A JSON text without surrounding whitespace: literal token, array, object. -/
  inductive D where
    | lit (ty : Tok) (w : List Nat)
    | arr (ws : List Nat) (es : Es)
    | obj (ws : List Nat) (ms : Ms)

  /-- Array elements, each with the whitespace after it and after the comma that follows. -/
  inductive Es where
    | nil
    | cons (v : D) (w1 w2 : List Nat) (rest : Es)

  /-- Object members: key token, whitespace before and after the colon, value, whitespace after the value and
  after the comma that follows. -/
  inductive Ms where
    | nil
    | cons (kty : Tok) (key : List Nat) (k1 k2 : List Nat) (v : D) (w1 w2 : List Nat) (rest : Ms)
end

mutual
  /-- The text of a document. -/
  def D.text : D → List Nat
    | .lit _ w => w
    | .arr ws es => 0x5B :: (ws ++ es.text)
    | .obj ws ms => 0x7B :: (ws ++ ms.text)

  /-- Text of the elements up to and including the closing bracket. -/
  def Es.text : Es → List Nat
    | .nil => [0x5D]
    | .cons v w1 w2 rest => v.text ++ (w1 ++ rest.tail w2)

  /-- Text after an element and its whitespace: closing bracket, or comma and further elements. -/
  def Es.tail : Es → List Nat → List Nat
    | .nil, _ => [0x5D]
    | .cons v w1 w2 rest, w => 0x2C :: (w ++ (v.text ++ (w1 ++ rest.tail w2)))

  /-- Text of the members up to and including the closing brace. -/
  def Ms.text : Ms → List Nat
    | .nil => [0x7D]
    | .cons _ key k1 k2 v w1 w2 rest => key ++ (k1 ++ 0x3A :: (k2 ++ (v.text ++ (w1 ++ rest.tail w2))))

  /-- Text after a member and its whitespace. -/
  def Ms.tail : Ms → List Nat → List Nat
    | .nil, _ => [0x7D]
    | .cons _ key k1 k2 v w1 w2 rest, w =>
        0x2C :: (w ++ (key ++ (k1 ++ 0x3A :: (k2 ++ (v.text ++ (w1 ++ rest.tail w2))))))
end

/-- The kinds of tokens that are values by themselves: strings, numbers, `null`, `true` and `false` (RFC 8259, section 3). -/
def Scalar (ty : Tok) : Prop :=
  ty = .string ∨ ty = .escString ∨ ty = .integer ∨ ty = .number ∨ ty = .null ∨ ty = .tru ∨ ty = .fals

@[simp] theorem scalar_iff {ty : Tok} : Scalar ty ↔ ty.isLiteral = true := by
  cases ty <;> simp [Scalar, Tok.isLiteral]

mutual
  /-- Every literal is a scalar token, every key a string token, every layout whitespace. -/
  def D.WF : D → Prop
    | .lit ty w => Scalar ty ∧ TokText ty w
    | .arr ws es => IsWs ws ∧ es.WF
    | .obj ws ms => IsWs ws ∧ ms.WF

  def Es.WF : Es → Prop
    | .nil => True
    | .cons v w1 w2 rest => v.WF ∧ IsWs w1 ∧ IsWs w2 ∧ rest.WF

  def Ms.WF : Ms → Prop
    | .nil => True
    | .cons kty key k1 k2 v w1 w2 rest =>
        (kty = .string ∨ kty = .escString) ∧ TokText kty key ∧ IsWs k1 ∧ IsWs k2 ∧ v.WF ∧ IsWs w1 ∧ IsWs w2 ∧ rest.WF
end

mutual
  /-- The tokens of a document. -/
  def D.toks : D → List (Tok × List Nat)
    | .lit ty w => [(ty, w)]
    | .arr _ es => (.arrayStart, [0x5B]) :: es.toks
    | .obj _ ms => (.objectStart, [0x7B]) :: ms.toks

  def Es.toks : Es → List (Tok × List Nat)
    | .nil => [(.arrayEnd, [0x5D])]
    | .cons v _ _ rest => v.toks ++ rest.tailToks

  def Es.tailToks : Es → List (Tok × List Nat)
    | .nil => [(.arrayEnd, [0x5D])]
    | .cons v _ _ rest => (.listDelim, [0x2C]) :: (v.toks ++ rest.tailToks)

  def Ms.toks : Ms → List (Tok × List Nat)
    | .nil => [(.objectEnd, [0x7D])]
    | .cons kty key _ _ v _ _ rest => (kty, key) :: (.objectKeyDelim, [0x3A]) :: (v.toks ++ rest.tailToks)

  def Ms.tailToks : Ms → List (Tok × List Nat)
    | .nil => [(.objectEnd, [0x7D])]
    | .cons kty key _ _ v _ _ rest =>
        (.listDelim, [0x2C]) :: (kty, key) :: (.objectKeyDelim, [0x3A]) :: (v.toks ++ rest.tailToks)
end

end Verif.Token
