import Verif.Basic

/-!
# Model of jsontokenizer.go

Bytes are natural numbers (every Go byte string is a list of numbers below 256; nothing here needs the
bound).  The `goto`-style loop of `Step` is a recursion over the rest of the input.
-/

namespace Verif.Token

/-- `tokenType`, jsontokenizer.go:8-26. -/
inductive Tok where
  | unknown | objectStart | objectEnd | objectKeyDelim | arrayStart | arrayEnd | listDelim
  | string | escString | integer | number | null | tru | fals | end_
  deriving DecidableEq, Repr

/-- `isLiteralToken`, jsontokenizer.go:28-30 (the constants from `tknString` to `tknFalse`). -/
def Tok.isLiteral : Tok → Bool
  | .string | .escString | .integer | .number | .null | .tru | .fals => true
  | _ => false

/-- `tokenizerState`, jsontokenizer.go:68-99. -/
inductive TS where
  | beginValueOrEmpty | beginValue | beginStringOrEmpty | beginString
  | inString | inStringEsc | inStringEscU | inStringEscU1 | inStringEscU12 | inStringEscU123
  | neg | s0 | t | tr | tru | f | fa | fal | fals | n | nu | nul
  | s1 | dot | dot0 | e | eSign | e0
  deriving DecidableEq, Repr

/-- `tokIsSpaceChar`, jsontokenizer.go:101-103: space, tab, CR, LF. -/
def isSpace (c : Nat) : Bool := c = 32 || c = 9 || c = 13 || c = 10

/-- `'0' <= c && c <= '9'`. -/
def isDigit (c : Nat) : Bool := 48 ≤ c && c ≤ 57

/-- `'1' <= c && c <= '9'`. -/
def isDigit19 (c : Nat) : Bool := 49 ≤ c && c ≤ 57

/-- The test of jsontokenizer.go:284, 292, 300, 308. -/
def isHex (c : Nat) : Bool := (48 ≤ c && c ≤ 57) || (97 ≤ c && c ≤ 102) || (65 ≤ c && c ≤ 70)

/-- What one character does: skip whitespace (`startPos = dataPos; continue`), change state and continue, end
the token including the character, end the token before the character (`dataPos--`, only for numbers), or
fail. -/
inductive Act where
  | skip | cont (s : TS) | done (t : Tok) | rewind | fail
  deriving DecidableEq, Repr

/-- The case `toksBeginValue`, jsontokenizer.go:179-229. -/
def actBeginValue (c : Nat) : Act :=
  if c ≤ 32 ∧ isSpace c then .skip
  else if c = 123 then .done .objectStart        -- {
  else if c = 125 then .done .objectEnd          -- }
  else if c = 58 then .done .objectKeyDelim      -- :
  else if c = 91 then .done .arrayStart          -- [
  else if c = 93 then .done .arrayEnd            -- ]
  else if c = 44 then .done .listDelim           -- ,
  else if c = 34 then .cont .inString            -- "
  else if c = 45 then .cont .neg                 -- -
  else if c = 48 then .cont .s0                  -- 0
  else if c = 116 then .cont .t                  -- t
  else if c = 102 then .cont .f                  -- f
  else if c = 110 then .cont .n                  -- n
  else if isDigit19 c then .cont .s1
  else .fail

/-- The case `toksBeginString`, jsontokenizer.go:242-251. -/
def actBeginString (c : Nat) : Act :=
  if c ≤ 32 ∧ isSpace c then .skip
  else if c = 34 then .cont .inString
  else .fail

/-- The case `toks0`, jsontokenizer.go:332-345. -/
def act0 (c : Nat) : Act :=
  if c = 46 then .cont .dot                      -- .
  else if c = 101 ∨ c = 69 then .cont .e         -- e E
  else .rewind

/-- The `switch state` of `Step`, jsontokenizer.go:167-468. -/
def act (s : TS) (c : Nat) : Act :=
  match s with
  | .beginValueOrEmpty =>
    if c ≤ 32 ∧ isSpace c then .skip else if c = 93 then .done .arrayEnd else actBeginValue c
  | .beginValue => actBeginValue c
  | .beginStringOrEmpty =>
    if c ≤ 32 ∧ isSpace c then .skip else if c = 125 then .done .objectEnd else actBeginString c
  | .beginString => actBeginString c
  | .inString =>
    if c = 34 then .done .escString
    else if c = 92 then .cont .inStringEsc       -- \
    else if c < 32 then .fail
    else .cont .inString
  | .inStringEsc =>
    -- b f n r t \ / "
    if c = 98 ∨ c = 102 ∨ c = 110 ∨ c = 114 ∨ c = 116 ∨ c = 92 ∨ c = 47 ∨ c = 34 then .cont .inString
    else if c = 117 then .cont .inStringEscU     -- u
    else .fail
  | .inStringEscU => if isHex c then .cont .inStringEscU1 else .fail
  | .inStringEscU1 => if isHex c then .cont .inStringEscU12 else .fail
  | .inStringEscU12 => if isHex c then .cont .inStringEscU123 else .fail
  | .inStringEscU123 => if isHex c then .cont .inString else .fail
  | .neg => if c = 48 then .cont .s0 else if isDigit19 c then .cont .s1 else .fail
  | .s1 => if isDigit c then .cont .s1 else act0 c
  | .s0 => act0 c
  | .dot => if isDigit c then .cont .dot0 else .fail
  | .dot0 =>
    if isDigit c then .cont .dot0 else if c = 101 ∨ c = 69 then .cont .e else .rewind
  | .e =>
    if c = 43 ∨ c = 45 then .cont .eSign         -- + -
    else if isDigit c then .cont .e0 else .fail
  | .eSign => if isDigit c then .cont .e0 else .fail
  | .e0 => if isDigit c then .cont .e0 else .rewind
  | .t => if c = 114 then .cont .tr else .fail
  | .tr => if c = 117 then .cont .tru else .fail
  | .tru => if c = 101 then .done .tru else .fail
  | .f => if c = 97 then .cont .fa else .fail
  | .fa => if c = 108 then .cont .fal else .fail
  | .fal => if c = 115 then .cont .fals else .fail
  | .fals => if c = 101 then .done .fals else .fail
  | .n => if c = 117 then .cont .nu else .fail
  | .nu => if c = 108 then .cont .nul else .fail
  | .nul => if c = 108 then .done .null else .fail

/-- jsontokenizer.go:472-477: refine the class of numbers and strings. -/
def refine (ty : Tok) (esc nonInt : Bool) : Tok :=
  if ty = .number ∧ nonInt = false then .integer
  else if ty = .escString ∧ esc = false then .string
  else ty

/-- Result of the scan: `startPos`, `endPos` and the class, or an error. -/
inductive Out where
  | err
  | tok (ty : Tok) (start stop : Nat)
  deriving DecidableEq, Repr

/-- The loop `DataLoop`, jsontokenizer.go:145-477.  `rest` is the input from `dataPos = pos` on, `start` is
`startPos`; `esc` is `strHasEscapes` and `nonInt` is `numberIsNonInteger` (set when a character is processed in
the states `toksInStringEsc`, and `toksDot`/`toksE`). -/
def scan : List Nat → Nat → TS → Nat → Bool → Bool → Out
  | [], pos, st, start, esc, nonInt =>
    match st with
    | .s1 | .s0 | .dot0 | .e0 => .tok (refine .number esc nonInt) start pos
    | .beginValue => .tok .end_ start pos
    | _ => .err
  | c :: rest, pos, st, start, esc, nonInt =>
    let esc := esc || decide (st = .inStringEsc)
    let nonInt := nonInt || decide (st = .dot) || decide (st = .e)
    match act st c with
    | .skip => scan rest (pos + 1) st (pos + 1) esc nonInt
    | .cont st' => scan rest (pos + 1) st' start esc nonInt
    | .done ty => .tok (refine ty esc nonInt) start (pos + 1)
    | .rewind => .tok (refine .number esc nonInt) start pos
    | .fail => .err

/-- `jsonTokenizer`, jsontokenizer.go:105-109 (`dataLen` is the length of `data`). -/
structure Tkn where
  data : List Nat
  pos : Nat
  deriving DecidableEq, Repr

/-- Slice `data[a:b]`. -/
def slice (data : List Nat) (a b : Nat) : List Nat := (data.drop a).take (b - a)

/-- `jsonTokenizer.Step`, jsontokenizer.go:125-488.  The result is the token class and its bytes (their number,
the third Go result, is the length), or `none` for an error, with the new tokenizer state. -/
def step (k : Tkn) : Option (Tok × List Nat) × Tkn :=
  if k.pos ≥ k.data.length then (some (.end_, []), k)
  else
    match scan (k.data.drop k.pos) k.pos .beginValue k.pos false false with
    | .err => (none, k)
    | .tok ty a b => (some (ty, slice k.data a b), { k with pos := b })

/-- `jsonTokenizer.Seek`, jsontokenizer.go:121-123. -/
def seek (k : Tkn) (pos : Nat) : Tkn := { k with pos := pos }

end Verif.Token
