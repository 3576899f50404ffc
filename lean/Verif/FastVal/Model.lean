import Verif.Token.Theorems

/-!
# Model of fastval.go

Floating point, time, regular expressions and string quoting come from Go's standard library; they are parameters
(`Ext`).  Any assumption on them is a hypothesis of the theorem that needs it.  Integers are 64-bit vectors; the decimal
conversions of `strconv` on integers are written out.
-/

namespace Verif.FastVal

/-- Standard-library operations used by fastval.go and fastval_math.go. -/
structure Ext where
  /-- `float64` -/
  F : Type
  /-- `*time.Time` -/
  T : Type
  /-- `FastValRegexIface` (regexp or PCRE) -/
  R : Type
  ofInt : BitVec 64 → F
  ofUint : BitVec 64 → F
  toInt : F → BitVec 64
  toUint : F → BitVec 64
  isNaN : F → Bool
  lt : F → F → Bool
  add : F → F → F
  sub : F → F → F
  mul : F → F → F
  div : F → F → F
  abs : F → F
  neg : F → F
  /-- the constant `0.0000001` of fastval.go:533 -/
  eps : F
  zero : F
  one : F
  /-- `floatVal != 0.0` -/
  nonZero : F → Bool
  /-- `floatVal >= math.MinInt64 && floatVal <= math.MaxInt64` -/
  inIntRange : F → Bool
  /-- `strconv.ParseFloat(s, 64)`: value and `err == nil` -/
  parseFloat : List Nat → F × Bool
  /-- `strconv.AppendFloat(_, f, 'E', -1, 64)` -/
  fmtE : F → List Nat
  /-- `fmt.Sprintf("%f", f)` -/
  fmtF : F → List Nat
  /-- `strconv.AppendQuote(nil, s)` without its first and last byte -/
  quote : List Nat → List Nat
  /-- `GetNewTimeFastVal`, fastval_date.go:83-90 -/
  parseTime : List Nat → Option T
  timeEq : T → T → Bool
  timeAfter : T → T → Bool
  reMatch : R → List Nat → Bool

/-- `FastVal.dataType` together with the data it selects, fastval.go:16-46 and 92-98.  Each constructor carries what the
corresponding constructor function (fastval.go:933-1121) stores. -/
inductive Data (E : Ext) where
  | invalid | missing | null | fals | tru
  | uint (v : BitVec 64) | jsonUint (s : List Nat)
  | int (v : BitVec 64) | jsonInt (s : List Nat)
  | float (f : E.F) | jsonFloat (s : List Nat)
  | str (s : List Nat) | binStr (s : List Nat) | jsonStr (s : List Nat)
  | time (t : E.T)
  | arr (s : List Nat) | obj (s : List Nat)
  | bin (s : List Nat) | regex (r : E.R) | pcre (r : E.R)

/-- `ValueType`, fastval.go:16-46. -/
inductive Ty where
  | invalid | missing | null | fals | tru | uint | jsonUint | int | jsonInt | float | jsonFloat
  | str | binStr | jsonStr | time | arr | obj | bin | regex | pcre
  deriving DecidableEq, Repr

/-- The integer value of a `ValueType` constant (`iota` order). -/
def Ty.rank : Ty → Nat
  | .invalid => 0 | .missing => 1 | .null => 2 | .fals => 3 | .tru => 4 | .uint => 5 | .jsonUint => 6 | .int => 7
  | .jsonInt => 8 | .float => 9 | .jsonFloat => 10 | .str => 11 | .binStr => 12 | .jsonStr => 13 | .time => 14
  | .arr => 15 | .obj => 16 | .bin => 17 | .regex => 18 | .pcre => 19

variable {E : Ext}

def Data.ty : Data E → Ty
  | .invalid => .invalid | .missing => .missing | .null => .null | .fals => .fals | .tru => .tru
  | .uint _ => .uint | .jsonUint _ => .jsonUint | .int _ => .int | .jsonInt _ => .jsonInt
  | .float _ => .float | .jsonFloat _ => .jsonFloat
  | .str _ => .str | .binStr _ => .binStr | .jsonStr _ => .jsonStr
  | .time _ => .time | .arr _ => .arr | .obj _ => .obj | .bin _ => .bin | .regex _ => .regex | .pcre _ => .pcre

/-- The field `sliceData` (nil, hence empty, for the kinds that do not set it; a `StringValue` keeps its text in
`data`). -/
def Data.slice : Data E → List Nat
  | .jsonUint s | .jsonInt s | .jsonFloat s | .binStr s | .jsonStr s | .arr s | .obj s | .bin s => s
  | _ => []

/-- `FastVal`, fastval.go:92-98. -/
structure FV (E : Ext) where
  d : Data E
  user : Bool

/-! ### Kinds, fastval.go:151-202 -/

def Ty.isInt (t : Ty) : Bool := t = .int || t = .jsonInt
def Ty.isUInt (t : Ty) : Bool := t = .uint || t = .jsonUint
def Ty.isFloat (t : Ty) : Bool := t = .float || t = .jsonFloat
def Ty.isNumeric (t : Ty) : Bool := t.isInt || t.isUInt || t.isFloat
def Ty.isString (t : Ty) : Bool := t = .str || t = .binStr || t = .jsonStr

/-! ### Decimal conversions (`strconv`) -/

/-- Digits to number; `none` if the text is empty or has a non-digit. -/
def parseNat : List Nat → Option Nat
  | [] => none
  | s => s.foldl (fun acc c => acc.bind fun v => if 48 ≤ c ∧ c ≤ 57 then some (10 * v + (c - 48)) else none) (some 0)

/-- `strconv.ParseUint(s, 10, 64)`: value and `err == nil`; a syntax error yields 0, overflow yields the maximum. -/
def parseUint (s : List Nat) : BitVec 64 × Bool :=
  match parseNat s with
  | none => (0#64, false)
  | some n => if n < 2 ^ 64 then (BitVec.ofNat 64 n, true) else (BitVec.ofNat 64 (2 ^ 64 - 1), false)

/-- `strconv.ParseInt(s, 10, 64)`: an optional sign, then as above with the bounds of `int64`. -/
def parseInt (s : List Nat) : BitVec 64 × Bool :=
  let (neg, ds) := match s with
    | 45 :: r => (true, r)
    | 43 :: r => (false, r)
    | _ => (false, s)
  match parseNat ds with
  | none => (0#64, false)
  | some n =>
    if neg then
      if n ≤ 2 ^ 63 then (BitVec.ofInt 64 (-(n : Int)), true) else (BitVec.ofInt 64 (-(2 ^ 63)), false)
    else
      if n < 2 ^ 63 then (BitVec.ofNat 64 n, true) else (BitVec.ofNat 64 (2 ^ 63 - 1), false)

/-- `strconv.AppendUint(nil, v, 10)` -/
def fmtUint (v : BitVec 64) : List Nat := (Nat.toDigits 10 v.toNat).map Char.toNat

/-- `strconv.AppendInt(nil, v, 10)` -/
def fmtInt (v : BitVec 64) : List Nat :=
  if v.toInt < 0 then 45 :: (Nat.toDigits 10 v.toInt.natAbs).map Char.toNat
  else (Nat.toDigits 10 v.toInt.natAbs).map Char.toNat

/-- `math.MaxInt64` -/
def maxInt64 : Nat := 2 ^ 63 - 1

/-! ### Conversions -/

/-- `AsInt`, fastval.go:220-252. -/
def Data.asInt : Data E → BitVec 64 × Bool
  | .int v => (v, true)
  | .uint v => (v, decide (v.toNat ≤ maxInt64))
  | .float f => (E.toInt f, false)
  | .binStr s | .jsonStr s | .jsonInt s => parseInt s
  | .jsonUint s =>
    let (v, ok) := parseUint s
    if ok = true ∧ v.toNat > maxInt64 then (0#64, false) else (v, ok)
  | .jsonFloat s => (E.toInt (E.parseFloat s).1, false)
  | .tru => (1#64, true)
  | .fals => (0#64, true)
  | _ => (0#64, false)

/-- `AsUint`, fastval.go:254-292 (`ToBinString` of the two string kinds is the value itself). -/
def Data.asUint : Data E → BitVec 64 × Bool
  | .int v => if v.toInt > 0 then (v, true) else (0#64, false)
  | .uint v => (v, true)
  | .float f => (E.toUint f, false)
  | .jsonInt s =>
    let (v, ok) := parseInt s
    if ok = true ∧ v.toInt > 0 then (v, true) else (0#64, false)
  | .binStr s | .jsonStr s => parseUint s
  | .jsonUint s => parseUint s
  | .jsonFloat s => (E.toUint (E.parseFloat s).1, (E.parseFloat s).2)
  | .tru => (1#64, true)
  | .fals => (0#64, true)
  | _ => (0#64, false)

/-- `AsFloat`, fastval.go:294-319. -/
def Data.asFloat : Data E → E.F × Bool
  | .int v => (E.ofInt v, true)
  | .uint v => (E.ofUint v, true)
  | .float f => (f, true)
  | .jsonInt s => (E.ofInt (parseInt s).1, (parseInt s).2)
  | .jsonUint s => (E.ofUint (parseUint s).1, (parseUint s).2)
  | .jsonStr s | .jsonFloat s => E.parseFloat s
  | .tru => (E.one, true)
  | .fals => (E.zero, true)
  | _ => (E.zero, false)

/-- `TrueStringRegex`, fastval.go:87: the character classes contain `|`. -/
def isTrueText : List Nat → Bool
  | [a, b, c, d] =>
    (a = 84 || a = 124 || a = 116) && (b = 82 || b = 124 || b = 114) && (c = 85 || c = 124 || c = 117) &&
      (d = 69 || d = 124 || d = 101)
  | _ => false

/-- `FalseStringRegex`, fastval.go:88. -/
def isFalseText : List Nat → Bool
  | [a, b, c, d, e] =>
    (a = 70 || a = 124 || a = 102) && (b = 65 || b = 124 || b = 97) && (c = 76 || c = 124 || c = 108) &&
      (d = 83 || d = 124 || d = 115) && (e = 69 || e = 124 || e = 101)
  | _ => false

/-- `AsBoolean`, fastval.go:321-354. -/
def Data.asBool : Data E → Bool × Bool
  | .jsonStr s => if isTrueText s then (true, true) else if isFalseText s then (false, true) else (false, false)
  | .int v => (decide (v ≠ 0#64), true)
  | .uint v => (decide (v ≠ 0#64), true)
  | .float f => (E.nonZero f, true)
  | .jsonInt s => (decide ((parseInt s).1 ≠ 0#64), (parseInt s).2)
  | .jsonUint s => (decide ((parseUint s).1 ≠ 0#64), (parseUint s).2)
  | .jsonFloat s => (E.nonZero (E.parseFloat s).1, (E.parseFloat s).2)
  | .tru => (true, true)
  | .fals => (false, true)
  | _ => (true, false)

/-- `TrueString`, `FalseString`, fastval.go:81-85. -/
def trueBytes : List Nat := [116, 114, 117, 101]
def falseBytes : List Nat := [102, 97, 108, 115, 101]

/-- `AsString`, fastval.go:356-383 (`ToBinString` of the two string kinds is the value itself). -/
def Data.asString : Data E → List Nat × Bool
  | .str s | .jsonStr s | .binStr s => (s, true)
  | .int v => (fmtInt v, true)
  | .uint v => (fmtUint v, true)
  | .float f => (E.fmtF f, true)
  | .jsonInt s | .jsonUint s | .jsonFloat s => (s, true)
  | .tru => (trueBytes, true)
  | .fals => (falseBytes, true)
  | _ => ([], false)

/-- Validity of `AsString`, used in `checkCompatibility`. -/
def Data.asStringOk (d : Data E) : Bool := d.asString.2

/-- `AsTime`, fastval.go:395-410: string kinds parse `sliceData`, which a `StringValue` does not set. -/
def Data.asTime : Data E → Option E.T
  | .time t => some t
  | .str _ => E.parseTime []
  | .jsonStr s | .binStr s => E.parseTime s
  | _ => none

/-- `ToJsonString`, fastval.go:452-473: the value and `err == nil`. -/
def Data.toJsonString : Data E → Data E × Bool
  | .str s => (.jsonStr (E.quote s), true)
  | .binStr s => (.jsonStr (E.quote s), true)
  | .jsonStr s => (.jsonStr s, true)
  | .tru => (.jsonStr trueBytes, true)
  | .fals => (.jsonStr falseBytes, true)
  | .null => (.invalid, false)
  | d => (d, false)

/-- `toJsonStringInternal`, fastval.go:429-450.  The shared buffer is overwritten by each call; sequentially at most one
operand of a comparison uses it, so here the bytes are returned by value.  (`Verif.Conc` models the sharing.) -/
def Data.toJsonStringInternal (d : Data E) : Data E × Bool :=
  match d.toJsonString with
  | (v, true) => (v, true)
  | (.uint v, false) => (.jsonStr (fmtUint v), true)
  | (.int v, false) => (.jsonStr (fmtInt v), true)
  | (.float f, false) => (.jsonStr (E.fmtE f), true)
  | (v, false) => (v, false)

/-! ### Comparison -/

/-- `strings.Compare` / byte-wise lexicographic order. -/
def cmpBytes : List Nat → List Nat → Int
  | [], [] => 0
  | [], _ :: _ => -1
  | _ :: _, [] => 1
  | a :: as, b :: bs => if a < b then -1 else if b < a then 1 else cmpBytes as bs

/-- `compareNull`, fastval.go:487-498. -/
def compareNull (a b : Data E) : Int × Bool :=
  if a.ty = .null ∧ b.ty = .null then (0, true)
  else if a.ty = .null ∧ b.ty ≠ .null then (-1, true)
  else if a.ty ≠ .null ∧ b.ty = .null then (1, true)
  else (0, false)

/-- `compareFloat`, fastval.go:530-564. -/
def compareFloat (a b : Data E) : Int × Bool :=
  let (x, v1) := a.asFloat
  let (y, v2) := b.asFloat
  if E.isNaN x = true ∧ E.isNaN y = true then (0, false)
  else if E.isNaN x = true ∧ E.isNaN y = false then (-1, false)
  else if E.isNaN x = false ∧ E.isNaN y = true then (1, false)
  else if E.lt (E.abs (E.sub x y)) E.eps then (0, v1 && v2)
  else if E.lt x y then (-1, v1 && v2)
  else if E.lt y x then (1, v1 && v2)
  else (0, v1 && v2)

/-- Three-way comparison of two integers. -/
def cmp3 (x y : Int) : Int := if x < y then -1 else if x > y then 1 else 0

/-- `compareInt`, fastval.go:500-515 with `floatToIntOverflows`, 475-485. -/
def compareInt (a b : Data E) : Int × Bool :=
  match b with
  | .float f =>
    if E.inIntRange f = false then compareFloat a b
    else (cmp3 a.asInt.1.toInt b.asInt.1.toInt, a.asInt.2 && b.asInt.2)
  | _ => (cmp3 a.asInt.1.toInt b.asInt.1.toInt, a.asInt.2 && b.asInt.2)

/-- `compareUint`, fastval.go:517-528. -/
def compareUint (a b : Data E) : Int × Bool :=
  (cmp3 a.asUint.1.toNat b.asUint.1.toNat, a.asUint.2 && b.asUint.2)

/-- `compareBoolean`, fastval.go:566-580. -/
def compareBoolean (a b : Data E) : Int × Bool :=
  let (x, v1) := a.asBool
  let (y, v2) := b.asBool
  if v1 = false ∨ v2 = false then (0, false)
  else if x = y then (0, true)
  else if x = true ∧ y = false then (1, true)
  else (-1, true)

/-- `compareTime`, fastval.go:608-623. -/
def compareTime (a b : Data E) : Int × Bool :=
  match a.asTime, b.asTime with
  | some s, some t => if E.timeEq s t then (0, true) else if E.timeAfter s t then (1, true) else (-1, true)
  | _, _ => (0, false)

/-- `compareStrings`, fastval.go:582-606. -/
def compareStrings (a b : FV E) : Int × Bool :=
  if b.d.ty.isString || b.d.ty.isNumeric then
    let (x, ok) := a.d.toJsonStringInternal
    let (y, ok1) := b.d.toJsonStringInternal
    (cmpBytes x.slice y.slice, ok && ok1)
  else if b.user then
    if b.d.ty = .tru ∨ b.d.ty = .fals then
      if isTrueText a.d.slice || isFalseText a.d.slice then compareBoolean a.d b.d else (0, false)
    else if b.d.ty = .time then
      match E.parseTime a.d.slice with
      | some _ => compareTime a.d b.d
      | none => (0, false)
    else (0, false)
  else (0, false)

/-- The byte loop of `compareObjArrData`, fastval.go:646-653 (equal lengths). -/
def cmpSameLen : List Nat → List Nat → Int
  | a :: as, b :: bs => if a > b then 1 else if a < b then -1 else cmpSameLen as bs
  | _, _ => 0

/-- `compareArray`, `compareObject`, `compareObjArrData`, fastval.go:625-658. -/
def compareObjArr (a b : Data E) : Int × Bool :=
  if a.ty = .arr ∨ a.ty = .obj then
    if a.slice.length > b.slice.length then (1, true)
    else if a.slice.length < b.slice.length then (-1, true)
    else (cmpSameLen a.slice b.slice, true)
  else (-1, false)

/-- `Collate`, fastval.go:669-677. -/
def collate (a b : Data E) : Int × Bool :=
  if a.ty = b.ty then (0, false) else if a.ty.rank < b.ty.rank then (-1, false) else (1, false)

/-- `compareNumerics`, fastval.go:744-793; the final `panic` is the `none` case. -/
def compareNumerics (a b : Data E) : Option (Int × Bool) :=
  if a.ty.isInt then
    some (if b.ty.isFloat then compareFloat a b
      else if b.ty.isUInt then (if a.asInt.1.toInt ≥ 0 then compareUint a b else compareInt a b)
      else compareInt a b)
  else if a.ty.isUInt then
    some (if b.ty.isInt then (if a.asInt.1.toInt ≥ 0 then compareUint a b else compareInt a b)
      else if b.ty.isFloat then compareFloat a b
      else compareUint a b)
  else if a.ty.isFloat then some (compareFloat a b)
  else none

/-- `compareInternal`, fastval.go:860-895. -/
def compareInternal (a b : FV E) : Int × Bool :=
  match a.d.ty with
  | .int | .uint | .float | .jsonInt | .jsonUint | .jsonFloat => (compareNumerics a.d b.d).getD (0, false)
  | .str | .binStr | .jsonStr => compareStrings a b
  | .tru | .fals => compareBoolean a.d b.d
  | .time => compareTime a.d b.d
  | .arr | .obj => compareObjArr a.d b.d
  | .null => compareNull a.d b.d
  | _ => collate a.d b.d

/-- `reverseCompare`, fastval.go:663-666. -/
def reverseCompare (a b : FV E) : Int × Bool :=
  let (r, v) := compareInternal b a
  (r * -1, v)

/-- `isSameDataTypeAs`, fastval.go:795-803. -/
def sameType (a b : Ty) : Bool := a = b || (a.isString && b.isString)

/-- `ImplicitConvTable`, fastval.go:52-77: `conv from to`. -/
def conv : Ty → Ty → Option Bool
  | .int, t | .jsonInt, t =>
    match t with
    | .uint | .jsonUint => some false
    | .float | .jsonFloat | .str | .binStr | .jsonStr | .null | .tru | .fals => some true
    | _ => none
  | .uint, t | .jsonUint, t =>
    match t with
    | .int | .jsonInt | .float | .jsonFloat | .str | .binStr | .jsonStr | .null | .tru | .fals => some true
    | _ => none
  | .float, t | .jsonFloat, t =>
    match t with
    | .str | .binStr | .jsonStr | .null | .tru | .fals => some true
    | _ => none
  | .tru, t =>
    match t with
    | .int | .jsonInt | .uint | .jsonUint | .float | .jsonFloat | .str | .binStr | .jsonStr | .null | .fals => some true
    | _ => none
  | .fals, t =>
    match t with
    | .int | .jsonInt | .uint | .jsonUint | .float | .jsonFloat | .str | .binStr | .jsonStr | .null | .tru => some true
    | _ => none
  | .str, t | .binStr, t | .jsonStr, t =>
    match t with
    | .int | .jsonInt | .uint | .jsonUint | .float | .jsonFloat | .tru | .fals | .time => some false
    | .null => some true
    | _ => none
  | _, _ => none

/-- `checkCompatibility`, fastval.go:806-857: can `b` be converted to the type of `a`?  (The cases `StringValue` and
`BinStringValue` of the last switch have empty bodies.) -/
def checkCompat (a b : Data E) : Bool :=
  if sameType a.ty b.ty then true
  else if a.ty = .null then true
  else
    match conv b.ty a.ty with
    | none => false
    | some true => true
    | some false =>
      match a.ty with
      | .time => b.asTime.isSome
      | .uint | .jsonUint => b.asUint.2
      | .int | .jsonInt => b.asInt.2
      | .float | .jsonFloat => b.asFloat.2
      | .tru | .fals => b.asBool.2
      | .jsonStr => b.asStringOk
      | _ => false

/-- `compareUserDefined`, fastval.go:715-741. -/
def compareUserDefined (a b : FV E) : Int × Bool :=
  if a.user then
    if checkCompat a.d b.d = false then
      if a.d.ty.isNumeric && b.d.ty.isNumeric then reverseCompare a b else collate a.d b.d
    else compareInternal a b
  else
    if checkCompat b.d a.d = false then
      if a.d.ty.isNumeric && b.d.ty.isNumeric then reverseCompare a b else collate a.d b.d
    else reverseCompare a b

/-- `Compare`, fastval.go:679-712. -/
def compare (a b : FV E) : Int × Bool :=
  if a.user || b.user then compareUserDefined a b
  else if sameType a.d.ty b.d.ty then compareInternal a b
  else if a.d.ty.rank < b.d.ty.rank then
    if checkCompat a.d b.d = false then
      if checkCompat b.d a.d = false then collate a.d b.d else reverseCompare a b
    else compareInternal a b
  else
    if checkCompat b.d a.d = false then
      if checkCompat a.d b.d = false then collate a.d b.d else compareInternal a b
    else reverseCompare a b

/-- `Equals`, fastval.go:897-904. -/
def equals (a b : FV E) : Bool × Bool :=
  let (r, v) := compare a b
  (if v = false then false else decide (r = 0), v)

/-- `AsRegex`, fastval.go:385-393. -/
def Data.asRegex : Data E → Option E.R
  | .regex r | .pcre r => some r
  | _ => none

/-- `matchStrings`, `Matches`, fastval.go:906-931. -/
def matchesRe (a b : FV E) : Bool × Bool :=
  if a.d.ty.isString then
    match a.d.toJsonStringInternal with
    | (_, false) => (false, false)
    | (x, true) =>
      match b.d.asRegex with
      | none => (false, false)
      | some r => (E.reMatch r x.slice, true)
  else (false, false)

end Verif.FastVal
