import Verif.Filter.Theorems

/-!
# The grammar of filters (C81)

The grammar of the struct tags of filterExprParser.go as a relation between filters and sequences of tokens, and the proof that
a sequence of tokens is the text of at most one filter.  The parser library (participle) is still a parameter, but it need only
be assumed to return a reading that the grammar allows (`Reads`).

`Writes true` also allows several arithmetic operators in a row (the tag `{ @@ ( @@ | @@ ) }` of `FEFieldWithMathType1`); what
is stored for them is left open (see `Filter/Chain.lean`), so such tokens are related to any term.

The grammar alone is ambiguous in four places, and the library takes the first alternative that applies: a constant before a
field of that name, `NOT` before a field of that name, as many `-` and as many operator characters as there are, and
`FEFieldWithMathType1` before `FieldOnly` (lines 443-447; a single field is a reading of both).  These choices are part of `Writes`.
-/

namespace Verif.Filter
open Verif.FastVal Verif.Expr Verif.Transform
open Verif.Token (D)

variable {E : Ext}

/-! ### Specification: tokens -/

/-- The kinds of tokens of Go's `text/scanner`. -/
inductive Kind where
  | ident | raw | char | str | int | float | punct
  deriving DecidableEq

structure Tk where
  kind : Kind
  text : List Nat
  deriving DecidableEq

/-- How tokens are read: which tokens count as the keyword or character `w` (`lit w`), and the values of numbers. -/
structure Scan (E : Ext) where
  lit : List Nat → Tk → Bool
  int : List Nat → Option (BitVec 64)
  float : List Nat → Option E.F

/-- A token counts as a keyword only if it has its text.  (Whether a quoted text with the text of a keyword counts is left open.) -/
def Scan.Law (S : Scan E) : Prop := ∀ w t, S.lit w t = true → t.text = w

/-- The next token is the keyword `w`. -/
def Scan.at (S : Scan E) (w : String) : List Tk → Bool
  | [] => false
  | t :: _ => S.lit (ascii w) t

/-! ### Specification: the grammar -/

/-- `{ @"-" }` -/
def Scan.Minus (S : Scan E) (neg : Bool) (ms : List Tk) : Prop := (∀ t ∈ ms, S.lit (ascii "-") t = true) ∧ neg = !ms.isEmpty

/-- `FEMathValue`, filterExprParser.go:764-768. -/
def Num.Writes (S : Scan E) (n : Num E) (ts : List Tk) : Prop :=
  ∃ ms t, ts = ms ++ [t] ∧ S.lit (ascii "-") t = false ∧ match n with
    | .int neg v => S.Minus neg ms ∧ t.kind = .int ∧ S.int t.text = some v
    | .float neg x => S.Minus neg ms ∧ t.kind = .float ∧ S.float t.text = some x

/-- `FEValue`, lines 806-809. -/
def Lit.Writes (S : Scan E) (l : Lit E) (ts : List Tk) : Prop :=
  match l with
  | .num n => n.Writes S ts
  | .str s => ∃ t, ts = [t] ∧ S.lit (ascii "-") t = false ∧ t.kind = .str ∧ t.text = s

/-- `{ FEArrayIndex }`, lines 672-676. -/
def idxWrites (S : Scan E) : List (List Nat) → List Tk → Prop
  | [], ts => ts = []
  | i :: is, ts => ∃ a t b r, ts = a :: t :: b :: r ∧ S.lit (ascii "[") a = true ∧ t.kind = .int ∧ t.text = i ∧ S.lit (ascii "]") b = true ∧
      idxWrites S is r

/-- `FEStringType`, lines 617-621, and `FEOnePathFuncNoArg`, lines 694-708. -/
def SegName.Writes (S : Scan E) (n : SegName) (ts : List Tk) : Prop :=
  match n with
  | .ident s => ∃ t, ts = [t] ∧ t.kind = .ident ∧ t.text = s
  | .raw s => ∃ t, ts = [t] ∧ t.kind = .raw ∧ t.text = s
  | .char s => ∃ t, ts = [t] ∧ t.kind = .char ∧ t.text = s
  | .doc => ∃ t a b, ts = [t, a, b] ∧ S.lit (ascii "META") t = true ∧ S.lit (ascii "(") a = true ∧ S.lit (ascii ")") b = true

/-- `FEOnePath`, lines 635-639. -/
def Seg.Writes (S : Scan E) (s : Seg) (ts : List Tk) : Prop := ∃ a b, ts = a ++ b ∧ s.name.Writes S a ∧ idxWrites S s.idx b

/-- `@@ { "." @@ }` -/
def segsWrites (S : Scan E) : List Seg → List Tk → Prop
  | [], _ => False
  | [s], ts => s.Writes S ts
  | s :: s' :: r, ts => ∃ a d b, ts = a ++ d :: b ∧ s.Writes S a ∧ S.lit (ascii ".") d = true ∧ segsWrites S (s' :: r) b

/-- `FEField`, lines 575-578. -/
def Fld.Writes (S : Scan E) (f : Fld) (ts : List Tk) : Prop :=
  ∃ ms b, ts = ms ++ b ∧ S.Minus f.neg ms ∧ S.at "-" b = false ∧ segsWrites S f.segs b

def Arith.word : Arith → String
  | .add => "+" | .sub => "-" | .mul => "*" | .div => "/" | .mod => "%"

/-- A number or a field as the second operand. -/
def Operand (S : Scan E) (ts : List Tk) : Prop := (∃ n : Num E, n.Writes S ts) ∨ ∃ f : Fld, f.Writes S ts

/-- One or more operators, each with an operand. -/
inductive OpLinks (S : Scan E) : List Tk → Prop
  | one (o : Arith) (t : Tk) (x : List Tk) : S.lit (ascii o.word) t = true → Operand S x → OpLinks S (t :: x)
  | more (o : Arith) (t : Tk) (x r : List Tk) : S.lit (ascii o.word) t = true → Operand S x → OpLinks S r → OpLinks S (t :: (x ++ r))

/-- `FEFieldWithMath`, lines 443-447, 469-473, 513-518; two or more operators if `many`. -/
def Term.Writes (S : Scan E) (many : Bool) (t : Term E) (ts : List Tk) : Prop :=
  (match t with
  | .field f => f.Writes S ts
  | .left n o f => ∃ a t b, ts = a ++ t :: b ∧ n.Writes S a ∧ S.lit (ascii o.word) t = true ∧ f.Writes S b
  | .right f o n => ∃ a t b, ts = a ++ t :: b ∧ f.Writes S a ∧ S.lit (ascii o.word) t = true ∧ n.Writes S b
  | .both f o g => ∃ a t b, ts = a ++ t :: b ∧ f.Writes S a ∧ S.lit (ascii o.word) t = true ∧ g.Writes S b) ∨
  (many = true ∧ ∃ (f : Fld) (o : Arith) (a : List Tk) (t : Tk) (x r : List Tk), ts = a ++ t :: (x ++ r) ∧ f.Writes S a ∧
    S.lit (ascii o.word) t = true ∧ Operand S x ∧ OpLinks S r)

def One.word : One → String
  | .abs => "ABS" | .acos => "ACOS" | .asin => "ASIN" | .atan => "ATAN" | .ceil => "CEIL" | .cos => "COS" | .date => "DATE"
  | .degrees => "DEGREES" | .exp => "EXP" | .floor => "FLOOR" | .log => "LOG" | .ln => "LN" | .sin => "SIN" | .tan => "TAN"
  | .radians => "RADIANS" | .round => "ROUND" | .sqrt => "SQRT"

def Two.word : Two → String
  | .atan2 => "ATAN2" | .pow => "POW"

mutual
  /-- `FEConstFuncExpression`, lines 1037-1042, 1087-1089, 1111-1114, 1194-1197, 1231-1249, 1331-1335, 1367-1370. -/
  def Fn.Writes (S : Scan E) (many : Bool) : Fn E → List Tk → Prop
    | .pi neg, ts => ∃ ms t a b, ts = ms ++ [t, a, b] ∧ S.Minus neg ms ∧ S.lit (ascii "PI") t = true ∧ S.lit (ascii "(") a = true ∧ S.lit (ascii ")") b = true
    | .e neg, ts => ∃ ms t a b, ts = ms ++ [t, a, b] ∧ S.Minus neg ms ∧ S.lit (ascii "E") t = true ∧ S.lit (ascii "(") a = true ∧ S.lit (ascii ")") b = true
    | .one neg n x, ts => ∃ ms t a c b, ts = ms ++ t :: a :: (c ++ [b]) ∧ S.Minus neg ms ∧ S.lit (ascii n.word) t = true ∧ S.lit (ascii "(") a = true ∧
        Arg.Writes S many x c ∧ S.lit (ascii ")") b = true
    | .two neg n x y, ts => ∃ ms t a c m c' b, ts = ms ++ t :: a :: (c ++ m :: (c' ++ [b])) ∧ S.Minus neg ms ∧ S.lit (ascii n.word) t = true ∧
        S.lit (ascii "(") a = true ∧ Arg.Writes S many x c ∧ S.lit (ascii ",") m = true ∧ Arg.Writes S many y c' ∧ S.lit (ascii ")") b = true
  /-- `FEConstFuncArgument`, lines 1127-1131. -/
  def Arg.Writes (S : Scan E) (many : Bool) : Arg E → List Tk → Prop
    | .fn f, ts => Fn.Writes S many f ts
    | .term t, ts => t.Writes S many ts
    | .lit l, ts => l.Writes S ts
end

/-- `FEBoolean`, lines 315-320. -/
def boolWord (b upper : Bool) : String := if b then (if upper then "TRUE" else "true") else (if upper then "FALSE" else "false")

def Scan.isBool (S : Scan E) (ts : List Tk) : Bool := S.at "TRUE" ts || S.at "true" ts || S.at "FALSE" ts || S.at "false" ts

/-- `FELhs` and `FERhs`, lines 372-377, 408-413; constants are tried before fields and values. -/
def Side.Writes (S : Scan E) (many : Bool) (s : Side E) (ts : List Tk) : Prop :=
  match s with
  | .bool b u => ∃ t, ts = [t] ∧ S.lit (ascii (boolWord b u)) t = true
  | .fn f => f.Writes S many ts
  | .term t => t.Writes S many ts ∧ S.isBool ts = false
  | .lit l => l.Writes S ts ∧ S.isBool ts = false

def Ch.word : Ch → String
  | .bang => "!" | .eq => "=" | .lt => "<" | .gt => ">"

/-- `FECheckOp`, lines 961-965, after the side. -/
def checkWrites (S : Scan E) (neg : Bool) (w : String) (ts : List Tk) : Prop :=
  ∃ a n b, ts = a :: (n ++ [b]) ∧ S.lit (ascii "IS") a = true ∧ (if neg then ∃ t, n = [t] ∧ S.lit (ascii "NOT") t = true else n = []) ∧ S.lit (ascii w) b = true

/-- `FECondition`, `FEOperand`, lines 214-217, 244-250, and what is below them. `NOT` and constants are tried first, and of two
characters that may be an operator both are taken. -/
def Cond.Writes (S : Scan E) (many : Bool) : Cond E → List Tk → Prop
  | .not c, ts => ∃ t r, ts = t :: r ∧ S.lit (ascii "NOT") t = true ∧ Cond.Writes S many c r
  | .bool b u, ts => ∃ t, ts = [t] ∧ S.lit (ascii (boolWord b u)) t = true
  | .regex x l, ts => ∃ t a c m c' b, ts = t :: a :: (c ++ m :: (c' ++ [b])) ∧ S.lit (ascii "REGEXP_CONTAINS") t = true ∧ S.lit (ascii "(") a = true ∧
      x.Writes S many c ∧ S.lit (ascii ",") m = true ∧ l.Writes S c' ∧ S.lit (ascii ")") b = true
  | .regexFn x f, ts => ∃ t a c m c' b, ts = t :: a :: (c ++ m :: (c' ++ [b])) ∧ S.lit (ascii "REGEXP_CONTAINS") t = true ∧ S.lit (ascii "(") a = true ∧
      x.Writes S many c ∧ S.lit (ascii ",") m = true ∧ f.Writes S many c' ∧ S.lit (ascii ")") b = true
  | .exist f, ts => ∃ t a c b, ts = t :: a :: (c ++ [b]) ∧ S.lit (ascii "EXISTS") t = true ∧ S.lit (ascii "(") a = true ∧ f.Writes S c ∧
      S.lit (ascii ")") b = true
  | .null s neg, ts => ∃ a b, ts = a ++ b ∧ s.Writes S many a ∧ S.at "NOT" a = false ∧ checkWrites S neg "NULL" b
  | .missing s neg, ts => ∃ a b, ts = a ++ b ∧ s.Writes S many a ∧ S.at "NOT" a = false ∧ checkWrites S neg "MISSING" b
  | .cmp l c0 c1 r, ts => ∃ a t m b, ts = a ++ t :: (m ++ b) ∧ l.Writes S many a ∧ S.at "NOT" a = false ∧ S.lit (ascii c0.word) t = true ∧
      (match c1 with
      | some c => ∃ t', m = [t'] ∧ S.lit (ascii c.word) t' = true
      | none => m = [] ∧ ∀ c : Ch, S.at c.word b = false) ∧ r.Writes S many b

mutual
  /-- `FEInnerExpression`, lines 72-74. -/
  def Filt.Writes (S : Scan E) (many : Bool) : Filt E → List Tk → Prop
    | .one c, ts => Conj.Writes S many c ts
    | .or c r, ts => ∃ a t b, ts = a ++ t :: b ∧ Conj.Writes S many c a ∧ S.lit (ascii "OR") t = true ∧ Filt.Writes S many r b
  /-- `FEInnerAndExpression`, lines 102-104. -/
  def Conj.Writes (S : Scan E) (many : Bool) : Conj E → List Tk → Prop
    | .one i, ts => Item.Writes S many i ts
    | .and i r, ts => ∃ a t b, ts = a ++ t :: b ∧ Item.Writes S many i a ∧ S.lit (ascii "AND") t = true ∧ Conj.Writes S many r b
  /-- `FESubExprOrTerm`, lines 132-135. -/
  def Item.Writes (S : Scan E) (many : Bool) : Item E → List Tk → Prop
    | .paren f, ts => ∃ t c b, ts = t :: (c ++ [b]) ∧ S.lit (ascii "(") t = true ∧ Filt.Writes S many f c ∧ S.lit (ascii ")") b = true
    | .cond c, ts => c.Writes S many ts ∧ S.at "(" ts = false
end

/-! ### A deterministic reader (used in the proofs only) -/

variable (S : Scan E)

def stripM : List Tk → Bool × List Tk
  | [] => (false, [])
  | t :: r => if S.lit (ascii "-") t then (true, (stripM r).2) else (false, t :: r)

def numOf (neg : Bool) (t : Tk) : Option (Num E) :=
  if t.kind = .int then (S.int t.text).map (Num.int neg) else (S.float t.text).map (Num.float neg)

def pIdx : List Tk → List (List Nat) × List Tk
  | a :: t :: b :: r => if S.lit (ascii "[") a then (t.text :: (pIdx r).1, (pIdx r).2) else ([], a :: t :: b :: r)
  | ts => ([], ts)

def pName : List Tk → Option (SegName × List Tk)
  | [] => none
  | t :: r =>
    if S.lit (ascii "META") t && S.at "(" r then some (.doc, r.drop 2)
    else if t.kind = .ident then some (.ident t.text, r)
    else if t.kind = .raw then some (.raw t.text, r)
    else if t.kind = .char then some (.char t.text, r)
    else none

def pSegs : Nat → List Tk → Option (List Seg × List Tk)
  | 0, _ => none
  | n + 1, ts => (pName S ts).bind fun x =>
    let y := pIdx S x.2
    if S.at "." y.2 then (pSegs n y.2.tail).bind fun z => some (⟨x.1, y.1⟩ :: z.1, z.2) else some ([⟨x.1, y.1⟩], y.2)

def ariths : List Arith := [.add, .sub, .mul, .div, .mod]
def arithOf (r : List Tk) : Option Arith := ariths.find? fun o => S.at o.word r

def chs : List Ch := [.bang, .eq, .lt, .gt]
def chOf (r : List Tk) : Option Ch := chs.find? fun o => S.at o.word r

inductive FnN where
  | pi | e | one (n : One) | two (n : Two)
  deriving DecidableEq

def FnN.word : FnN → String
  | .pi => "PI" | .e => "E" | .one n => n.word | .two n => n.word

def fnNs : List FnN := .pi :: .e :: (([.abs, .acos, .asin, .atan, .ceil, .cos, .date, .degrees, .exp, .floor, .log, .ln, .sin, .tan, .radians, .round,
  .sqrt] : List One).map FnN.one ++ ([.atan2, .pow] : List Two).map FnN.two)

def fnOf (r : List Tk) : Option FnN := if S.at "(" r.tail then fnNs.find? fun o => S.at o.word r else none

/-- The next token is a number. -/
def isNum (ts : List Tk) : Bool :=
  match ts with
  | [] => false
  | t :: r => (t.kind = .int || t.kind = .float) && !S.at "(" r

def isStr (ts : List Tk) : Bool :=
  match ts with
  | [] => false
  | t :: r => t.kind = .str && !S.at "(" r

def pFld (ts : List Tk) : Option (Fld × List Tk) :=
  let m := stripM S ts
  (pSegs S (m.2.length + 1) m.2).bind fun x => some (⟨m.1, x.1⟩, x.2)

def pNum (ts : List Tk) : Option (Num E × List Tk) :=
  let m := stripM S ts
  match m.2 with
  | [] => none
  | t :: r => (numOf S m.1 t).bind fun v => some (v, r)

/-- A term or value. -/
def pPlain (ts : List Tk) : Option (Arg E × List Tk) :=
  let m := stripM S ts
  if isStr S m.2 then (m.2.head?).bind fun t => some (.lit (.str t.text), m.2.tail)
  else if isNum S m.2 then (pNum S ts).bind fun v =>
    match arithOf S v.2 with
    | none => some (.lit (.num v.1), v.2)
    | some o => (pFld S v.2.tail).bind fun f => some (.term (.left v.1 o f.1), f.2)
  else (pFld S ts).bind fun f =>
    match arithOf S f.2 with
    | none => some (.term (.field f.1), f.2)
    | some o =>
      if isNum S (stripM S f.2.tail).2 then (pNum S f.2.tail).bind fun v =>
        if (arithOf S v.2).isSome then none else some (.term (.right f.1 o v.1), v.2)
      else (pFld S f.2.tail).bind fun g =>
        if (arithOf S g.2).isSome then none else some (.term (.both f.1 o g.1), g.2)

def pArg : Nat → List Tk → Option (Arg E × List Tk)
  | 0, _ => none
  | n + 1, ts =>
    let m := stripM S ts
    match fnOf S m.2 with
    | none => pPlain S ts
    | some .pi => some (.fn (.pi m.1), m.2.drop 3)
    | some .e => some (.fn (.e m.1), m.2.drop 3)
    | some (.one k) => (pArg n (m.2.drop 2)).bind fun a => some (.fn (.one m.1 k a.1), a.2.tail)
    | some (.two k) => (pArg n (m.2.drop 2)).bind fun a => (pArg n a.2.tail).bind fun b => some (.fn (.two m.1 k a.1 b.1), b.2.tail)

def bools : List (Bool × Bool) := [(true, true), (true, false), (false, true), (false, false)]
def boolOf (r : List Tk) : Option (Bool × Bool) := bools.find? fun o => S.at (boolWord o.1 o.2) r

def Arg.side : Arg E → Side E
  | .fn f => .fn f
  | .term t => .term t
  | .lit l => .lit l

def pSide (ts : List Tk) : Option (Side E × List Tk) :=
  match boolOf S ts with
  | some b => some (.bool b.1 b.2, ts.tail)
  | none => (pArg S (ts.length + 1) ts).bind fun a => some (a.1.side, a.2)

def pRest (s : Side E) (r : List Tk) : Option (Cond E × List Tk) :=
  if S.at "IS" r then
    let neg := S.at "NOT" r.tail
    let r3 := if neg then r.tail.tail else r.tail
    if S.at "NULL" r3 then some (.null s neg, r3.tail) else if S.at "MISSING" r3 then some (.missing s neg, r3.tail) else none
  else match chOf S r with
    | some c0 =>
      let r2 := if (chOf S r.tail).isSome then r.tail.tail else r.tail
      (pSide S r2).bind fun y => some (.cmp s c0 (chOf S r.tail) y.1, y.2)
    | none => match s with
      | .bool b u => some (.bool b u, r)
      | _ => none

def pCond : List Tk → Option (Cond E × List Tk)
  | [] => none
  | t :: r =>
    if S.lit (ascii "NOT") t then (pCond r).bind fun c => some (.not c.1, c.2)
    else if S.lit (ascii "REGEXP_CONTAINS") t && S.at "(" r then (pArg S (r.length + 1) r.tail).bind fun a => (pArg S (r.length + 1) a.2.tail).bind fun b =>
      match b.1 with
      | .lit l => some (.regex a.1 l, b.2.tail)
      | .fn f => some (.regexFn a.1 f, b.2.tail)
      | .term _ => none
    else if S.lit (ascii "EXISTS") t && S.at "(" r then (pFld S r.tail).bind fun f => some (.exist f.1, f.2.tail)
    else (pSide S (t :: r)).bind fun s => pRest S s.1 s.2

mutual
  def pFilt : Nat → List Tk → Option (Filt E × List Tk)
    | 0, _ => none
    | n + 1, ts => (pConj n ts).bind fun c => if S.at "OR" c.2 then (pFilt n c.2.tail).bind fun r => some (.or c.1 r.1, r.2) else some (.one c.1, c.2)
  def pConj : Nat → List Tk → Option (Conj E × List Tk)
    | 0, _ => none
    | n + 1, ts => (pItem n ts).bind fun c => if S.at "AND" c.2 then (pConj n c.2.tail).bind fun r => some (.and c.1 r.1, r.2) else some (.one c.1, c.2)
  def pItem : Nat → List Tk → Option (Item E × List Tk)
    | 0, _ => none
    | n + 1, ts => if S.at "(" ts then (pFilt n ts.tail).bind fun f => some (.paren f.1, f.2.tail) else (pCond S ts).bind fun c => some (.cond c.1, c.2)
end

/-! ### The reader finds what is written -/

variable {S}

/-- Every token that may follow is one of the words. -/
def Fol (S : Scan E) (W : List String) (r : List Tk) : Prop := ∀ t r', r = t :: r' → ∃ w ∈ W, S.lit (ascii w) t = true

theorem at_unique (hS : S.Law) {v w : String} {ts : List Tk} (h : S.at v ts = true) (hne : ascii v ≠ ascii w) : S.at w ts = false := by
  cases ts with
  | nil => rfl
  | cons t r =>
    rw [Bool.eq_false_iff]
    intro h'
    exact hne ((hS _ _ h).symm.trans (hS _ _ h'))

theorem Fol.not (hS : S.Law) {W : List String} {r : List Tk} (h : Fol S W r) (w : String) (hw : ∀ v ∈ W, ascii v ≠ ascii w) : S.at w r = false := by
  cases r with
  | nil => rfl
  | cons t r =>
    obtain ⟨v, hv, h⟩ := h t r rfl
    exact at_unique hS (ts := t :: r) h (hw v hv)

theorem find_word {α : Type} (hS : S.Law) (l : List α) (word : α → String) (a : α) (ha : a ∈ l) (r : List Tk)
    (inj : ∀ b ∈ l, ascii (word b) = ascii (word a) → b = a) (h : S.at (word a) r = true) : (l.find? fun o => S.at (word o) r) = some a := by
  cases r with
  | nil => cases h
  | cons t r =>
    induction l with
    | nil => cases ha
    | cons b l ih =>
      rw [List.find?_cons]
      cases hb : S.at (word b) (t :: r) with
      | true => rw [inj b (List.mem_cons_self ..) ((hS _ _ hb).symm.trans (hS _ _ h))]
      | false =>
        rcases List.mem_cons.1 ha with rfl | ha
        · rw [h] at hb; cases hb
        · exact ih ha fun c hc => inj c (List.mem_cons_of_mem _ hc)

theorem find_none {α : Type} (l : List α) (word : α → String) (r : List Tk) (h : ∀ a ∈ l, S.at (word a) r = false) :
    (l.find? fun o => S.at (word o) r) = none := by
  rw [List.find?_eq_none]
  intro a ha
  rw [h a ha]
  exact Bool.false_ne_true

theorem arithOf_some (hS : S.Law) (o : Arith) {r : List Tk} (h : S.at o.word r = true) : arithOf S r = some o :=
  find_word hS ariths Arith.word o (by cases o <;> decide) r (by cases o <;> decide) h
theorem chOf_some (hS : S.Law) (o : Ch) {r : List Tk} (h : S.at o.word r = true) : chOf S r = some o :=
  find_word hS chs Ch.word o (by cases o <;> decide) r (by cases o <;> decide) h
theorem fnOf_some (hS : S.Law) (o : FnN) {r : List Tk} (hp : S.at "(" r.tail = true) (h : S.at o.word r = true) : fnOf S r = some o := by
  rw [fnOf, if_pos hp]
  refine find_word hS fnNs FnN.word o ?_ r ?_ h
  · cases o with
    | one n => cases n <;> decide
    | two n => cases n <;> decide
    | _ => decide
  · cases o with
    | one n => cases n <;> decide +kernel
    | two n => cases n <;> decide +kernel
    | _ => decide +kernel
theorem boolOf_some (hS : S.Law) (b u : Bool) {r : List Tk} (h : S.at (boolWord b u) r = true) : boolOf S r = some (b, u) :=
  find_word hS bools (fun o => boolWord o.1 o.2) (b, u) (by cases b <;> cases u <;> decide) r (by cases b <;> cases u <;> decide) h
theorem boolOf_none {r : List Tk} (h : S.isBool r = false) : boolOf S r = none := by
  simp only [Scan.isBool, Bool.or_eq_false_iff] at h
  exact find_none _ (fun o : Bool × Bool => boolWord o.1 o.2) r (by
    intro a ha
    simp only [bools, List.mem_cons, List.not_mem_nil, or_false] at ha
    rcases ha with rfl | rfl | rfl | rfl
    · exact h.1.1.1
    · exact h.1.1.2
    · exact h.1.2
    · exact h.2)

def sideW : List String := ["AND", "OR", ")", ",", "IS", "!", "=", "<", ">"]
def condW : List String := ["AND", "OR", ")"]
def fldW : List String := sideW ++ ["+", "-", "*", "/", "%"]

theorem Fol.mono {W W' : List String} (h : ∀ w ∈ W, w ∈ W') {r : List Tk} (hr : Fol S W r) : Fol S W' r := fun t r' he => by
  obtain ⟨w, hw, hl⟩ := hr t r' he
  exact ⟨w, h w hw, hl⟩

theorem Fol.cons {W : List String} {t : Tk} (w : String) (r : List Tk) (h : S.lit (ascii w) t = true) (hw : w ∈ W) : Fol S W (t :: r) :=
  fun t' r' he => by cases he; exact ⟨w, hw, h⟩

theorem arithOf_none (hS : S.Law) {r : List Tk} (h : Fol S sideW r) : arithOf S r = none :=
  find_none _ _ _ fun a _ => h.not hS _ (by cases a <;> decide)
theorem chOf_none (hS : S.Law) {r : List Tk} (h : Fol S condW r) : chOf S r = none :=
  find_none _ _ _ fun a _ => h.not hS _ (by cases a <;> decide)

theorem stripM_minus (neg : Bool) : ∀ (ms b : List Tk), S.Minus neg ms → S.at "-" b = false → stripM S (ms ++ b) = (neg, b)
  | [], b, h, hb => by
    obtain ⟨_, rfl⟩ := h
    cases b with
    | nil => rfl
    | cons t r => rw [List.nil_append, stripM, if_neg (by rw [show S.lit (ascii "-") t = false from hb]; exact Bool.false_ne_true)]; rfl
  | m :: ms, b, h, hb => by
    obtain ⟨h1, rfl⟩ := h
    have := stripM_minus (!ms.isEmpty) ms b ⟨fun t ht => h1 t (List.mem_cons_of_mem _ ht), rfl⟩ hb
    rw [List.cons_append, stripM, if_pos (h1 m (List.mem_cons_self ..)), this]
    rfl

theorem pIdx_writes : ∀ (is : List (List Nat)) (ts r : List Tk), idxWrites S is ts → S.at "[" r = false → pIdx S (ts ++ r) = (is, r)
  | [], ts, r, h, hr => by
    rw [idxWrites] at h
    subst h
    rw [List.nil_append]
    unfold pIdx
    split
    · rw [if_neg (by rw [show S.lit (ascii "[") _ = false from hr]; exact Bool.false_ne_true)]
    · rfl
  | i :: is, ts, r, h, hr => by
    obtain ⟨a, t, b, r', rfl, h1, h2, h3, h4, h5⟩ := h
    have := pIdx_writes is r' r h5 hr
    simp only [List.cons_append]
    rw [pIdx, if_pos h1, this, h3]

theorem pName_writes (n : SegName) (ts r : List Tk) (h : n.Writes S ts) (hr : S.at "(" r = false) : pName S (ts ++ r) = some (n, r) := by
  cases n with
  | ident s =>
    obtain ⟨t, rfl, h1, h2⟩ := h
    simp [pName, hr, h1, h2]
  | raw s =>
    obtain ⟨t, rfl, h1, h2⟩ := h
    simp [pName, hr, h1, h2]
  | char s =>
    obtain ⟨t, rfl, h1, h2⟩ := h
    simp [pName, hr, h1, h2]
  | doc =>
    obtain ⟨t, a, b, rfl, h1, h2, h3⟩ := h
    simp [pName, Scan.at, h1, h2]

theorem name_head {n : SegName} {ts : List Tk} (h : n.Writes S ts) : ts ≠ [] := by
  cases n with
  | doc => obtain ⟨_, _, _, rfl, _⟩ := h; simp
  | _ => obtain ⟨_, rfl, _⟩ := h; simp

theorem idx_follow (hS : S.Law) {is : List (List Nat)} {ts r : List Tk} (h : idxWrites S is ts) (hr : S.at "(" r = false) : S.at "(" (ts ++ r) = false := by
  cases is with
  | nil => rw [idxWrites] at h; subst h; exact hr
  | cons i is =>
    obtain ⟨a, t, b, r', rfl, h1, _⟩ := h
    exact at_unique hS (v := "[") (ts := a :: (t :: b :: r' ++ r)) h1 (by decide)

theorem pSegs_writes (hS : S.Law) : ∀ (n : Nat) (ss : List Seg) (ts r : List Tk), segsWrites S ss ts → ts.length < n → S.at "(" r = false →
    S.at "[" r = false → S.at "." r = false → pSegs S n (ts ++ r) = some (ss, r)
  | 0, _, _, _, _, h, _, _, _ => absurd h (Nat.not_lt_zero _)
  | n + 1, [], _, _, h, _, _, _, _ => h.elim
  | n + 1, [s], ts, r, h, hl, h1, h2, h3 => by
    obtain ⟨a, b, rfl, ha, hb⟩ := h
    rw [List.append_assoc, pSegs, pName_writes s.name a (b ++ r) ha (idx_follow hS hb h1)]
    simp only [Option.bind_some]
    rw [pIdx_writes s.idx b r hb h2]
    simp [h3]
  | n + 1, s :: s' :: ss, ts, r, h, hl, h1, h2, h3 => by
    obtain ⟨x, d, c, rfl, ⟨a, b, rfl, ha, hb⟩, hd, hc⟩ := h
    have hd' : S.at "." (d :: (c ++ r)) = true := hd
    have hlen : c.length < n := by
      simp only [List.length_append, List.length_cons] at hl
      omega
    have := pSegs_writes hS n (s' :: ss) c r hc hlen h1 h2 h3
    have he : a ++ b ++ d :: c ++ r = a ++ (b ++ (d :: (c ++ r))) := by simp
    rw [he, pSegs, pName_writes s.name a _ ha (idx_follow hS hb (at_unique hS hd' (by decide)))]
    simp only [Option.bind_some]
    rw [pIdx_writes s.idx b _ hb (at_unique hS hd' (by decide))]
    simp only [hd', if_true, List.tail_cons]
    rw [this]
    rfl

theorem pFld_writes (hS : S.Law) (f : Fld) (ts r : List Tk) (h : f.Writes S ts) (hr : Fol S fldW r) : pFld S (ts ++ r) = some (f, r) := by
  obtain ⟨ms, b, rfl, h1, h2, h3⟩ := h
  have hb : b ≠ [] := by
    intro hc
    subst hc
    generalize f.segs = ss at h3
    match ss, h3 with
    | [s], ⟨a, b, he, ha, _⟩ => exact name_head ha (List.append_eq_nil_iff.1 he.symm).1
    | s :: s' :: ss, ⟨a, d, b, he, _⟩ => simp at he
  have h2' : S.at "-" (b ++ r) = false := by
    cases b with
    | nil => exact absurd rfl hb
    | cons t b => exact h2
  rw [List.append_assoc, pFld, stripM_minus f.neg ms (b ++ r) h1 h2']
  simp only []
  rw [pSegs_writes hS _ f.segs b r h3 (by simp; omega) (hr.not hS _ (by decide)) (hr.not hS _ (by decide)) (hr.not hS _ (by decide))]
  rfl

theorem num_head {n : Num E} {ts : List Tk} (h : n.Writes S ts) :
    ∃ neg ms t, ts = ms ++ [t] ∧ S.Minus neg ms ∧ S.lit (ascii "-") t = false ∧ (t.kind = .int ∨ t.kind = .float) ∧ numOf S neg t = some n := by
  obtain ⟨ms, t, rfl, h1, h2⟩ := h
  cases n with
  | int neg v => exact ⟨neg, ms, t, rfl, h2.1, h1, .inl h2.2.1, by simp [numOf, h2]⟩
  | float neg x => exact ⟨neg, ms, t, rfl, h2.1, h1, .inr h2.2.1, by simp [numOf, h2]⟩

theorem pNum_writes (n : Num E) (ts r : List Tk) (h : n.Writes S ts) (hr : S.at "(" r = false) :
    pNum S (ts ++ r) = some (n, r) ∧ isNum S (stripM S (ts ++ r)).2 = true ∧ isStr S (stripM S (ts ++ r)).2 = false := by
  obtain ⟨neg, ms, t, rfl, h1, h2, h3, h4⟩ := num_head h
  have hs : stripM S (ms ++ [t] ++ r) = (neg, t :: r) := by
    rw [List.append_assoc]
    exact stripM_minus neg ms (t :: r) h1 h2
  refine ⟨?_, ?_, ?_⟩
  · rw [pNum, hs]
    simp [h4]
  · rw [hs]
    rcases h3 with h3 | h3 <;> simp [isNum, h3, hr]
  · rw [hs]
    rcases h3 with h3 | h3 <;> simp [isStr, h3]

/-- A field does not begin like a number or a quoted text. -/
theorem fld_head (f : Fld) (ts r : List Tk) (h : f.Writes S ts) : isNum S (stripM S (ts ++ r)).2 = false ∧ isStr S (stripM S (ts ++ r)).2 = false := by
  obtain ⟨ms, b, rfl, h1, h2, h3⟩ := h
  have key : ∃ t b', b = t :: b' ∧ ((t.kind = .ident ∨ t.kind = .raw ∨ t.kind = .char) ∨ S.at "(" b' = true) := by
    have name : ∀ (n : SegName) (a : List Tk) (c : List Tk), n.Writes S a →
        ∃ t b', a ++ c = t :: b' ∧ ((t.kind = .ident ∨ t.kind = .raw ∨ t.kind = .char) ∨ S.at "(" b' = true) := by
      intro n a c hn
      cases n with
      | ident s => obtain ⟨t, rfl, hk, _⟩ := hn; exact ⟨t, c, rfl, .inl (.inl hk)⟩
      | raw s => obtain ⟨t, rfl, hk, _⟩ := hn; exact ⟨t, c, rfl, .inl (.inr (.inl hk))⟩
      | char s => obtain ⟨t, rfl, hk, _⟩ := hn; exact ⟨t, c, rfl, .inl (.inr (.inr hk))⟩
      | doc => obtain ⟨t, x, y, rfl, _, hp, _⟩ := hn; exact ⟨t, x :: y :: c, rfl, .inr hp⟩
    generalize f.segs = ss at h3
    match ss, h3 with
    | [s], ⟨a, c, he, ha, _⟩ => rw [he]; exact name _ a c ha
    | s :: s' :: ss, ⟨x, d, c, he, ⟨a, a', he', ha, _⟩, _⟩ => rw [he, he', List.append_assoc]; exact name _ a _ ha
  obtain ⟨t, b', rfl, hk⟩ := key
  rw [List.append_assoc, stripM_minus f.neg ms (t :: b' ++ r) h1 h2]
  have hp : S.at "(" b' = true → S.at "(" (b' ++ r) = true := by
    intro h
    cases b' with
    | nil => cases h
    | cons x y => exact h
  rcases hk with (hk | hk | hk) | hk
  · simp [isNum, isStr, hk]
  · simp [isNum, isStr, hk]
  · simp [isNum, isStr, hk]
  · simp [isNum, isStr, hp hk]

/-- What was expected is found; with `many` it is also possible that the reader gives up. -/
def Got {α : Type} (many : Bool) (p : Option (α × List Tk)) (x : α) (r : List Tk) : Prop := p = some (x, r) ∨ (many = true ∧ p = none)

theorem Got.bind {α β : Type} {many : Bool} {p : Option (α × List Tk)} {x : α} {r : List Tk} (h : Got many p x r) {f : α × List Tk → Option (β × List Tk)}
    {y : β} {r' : List Tk} (hf : Got many (f (x, r)) y r') : Got many (p.bind f) y r' := by
  rcases h with h | ⟨hm, h⟩
  · rw [h]; exact hf
  · rw [h]; exact .inr ⟨hm, rfl⟩

theorem lit_fol {t : Tk} {r : List Tk} (o : Arith) (h : S.lit (ascii o.word) t = true) : Fol S fldW (t :: r) :=
  Fol.cons _ _ h (by cases o <;> decide)

theorem at_cons {w : String} {t : Tk} {r : List Tk} (h : S.lit (ascii w) t = true) : S.at w (t :: r) = true := h

theorem side_fld {r : List Tk} (h : Fol S sideW r) : Fol S fldW r := h.mono fun _ hw => List.mem_append_left _ hw

theorem pPlain_lit (hS : S.Law) (l : Lit E) (ts r : List Tk) (h : l.Writes S ts) (hr : Fol S sideW r) : pPlain S (ts ++ r) = some (.lit l, r) := by
  have hp := hr.not hS "(" (by decide)
  cases l with
  | str s =>
    obtain ⟨t, rfl, h1, h2, h3⟩ := h
    have hs : stripM S ([t] ++ r) = (false, t :: r) := stripM_minus false [] (t :: r) ⟨by simp, rfl⟩ h1
    rw [pPlain, hs]
    simp [isStr, h2, h3, hp]
  | num n =>
    obtain ⟨h1, h2, h3⟩ := pNum_writes n ts r h hp
    simp only [pPlain, h1, h2, h3, Bool.false_eq_true, if_false, if_true, Option.bind_some]
    rw [arithOf_none hS hr]

theorem pPlain_term (hS : S.Law) (many : Bool) (x : Term E) (ts r : List Tk) (h : x.Writes S many ts) (hr : Fol S sideW r) :
    Got many (pPlain S (ts ++ r)) (.term x) r := by
  have hnp : ∀ {o : Arith} {t : Tk} {b : List Tk}, S.lit (ascii o.word) t = true → S.at "(" (t :: b) = false := fun {o} {t} {b} ht =>
    at_unique hS (at_cons ht) (by cases o <;> decide)
  rcases h with h | ⟨hm, f, o, a, t, y, b, rfl, hf, ho, hy, hb⟩
  · refine .inl ?_
    cases x with
    | field f =>
      obtain ⟨h2, h3⟩ := fld_head f ts r h
      simp only [pPlain, h2, h3, Bool.false_eq_true, if_false, pFld_writes hS f ts r h (side_fld hr), Option.bind_some]
      rw [arithOf_none hS hr]
    | left n o f =>
      obtain ⟨a, t, b, rfl, hn, ho, hf⟩ := h
      rw [List.append_assoc]
      obtain ⟨h1, h2, h3⟩ := pNum_writes n a (t :: b ++ r) hn (hnp ho)
      simp only [pPlain, h1, h2, h3, Bool.false_eq_true, if_false, if_true, Option.bind_some]
      rw [arithOf_some hS o (r := t :: b ++ r) ho]
      simp only [List.cons_append, List.tail_cons]
      rw [pFld_writes hS f b r hf (side_fld hr)]
      rfl
    | right f o n =>
      obtain ⟨a, t, b, rfl, hf, ho, hn⟩ := h
      rw [List.append_assoc]
      obtain ⟨h2, h3⟩ := fld_head f a (t :: b ++ r) hf
      obtain ⟨g1, g2, g3⟩ := pNum_writes n b r hn (hr.not hS _ (by decide))
      simp only [pPlain, h2, h3, Bool.false_eq_true, if_false, pFld_writes hS f a (t :: b ++ r) hf (lit_fol o ho), Option.bind_some]
      rw [arithOf_some hS o (r := t :: b ++ r) ho]
      simp only [List.cons_append, List.tail_cons, g1, g2, if_true, Option.bind_some, arithOf_none hS hr]
      rfl
    | both f o g =>
      obtain ⟨a, t, b, rfl, hf, ho, hg⟩ := h
      rw [List.append_assoc]
      obtain ⟨h2, h3⟩ := fld_head f a (t :: b ++ r) hf
      obtain ⟨g2, g3⟩ := fld_head g b r hg
      simp only [pPlain, h2, h3, Bool.false_eq_true, if_false, pFld_writes hS f a (t :: b ++ r) hf (lit_fol o ho), Option.bind_some]
      rw [arithOf_some hS o (r := t :: b ++ r) ho]
      simp only [List.cons_append, List.tail_cons, g2, Bool.false_eq_true, if_false, pFld_writes hS g b r hg (side_fld hr), Option.bind_some, arithOf_none hS hr]
      rfl
  · refine .inr ⟨hm, ?_⟩
    have : ∃ (o' : Arith) (t' : Tk) (b' : List Tk), b = t' :: b' ∧ S.lit (ascii o'.word) t' = true := by
      cases hb with
      | one o' t' x h _ => exact ⟨o', t', x, rfl, h⟩
      | more o' t' x r h _ _ => exact ⟨o', t', x ++ r, rfl, h⟩
    obtain ⟨o', t', b', rfl, ho'⟩ := this
    have he : a ++ t :: (y ++ t' :: b') ++ r = a ++ (t :: (y ++ (t' :: (b' ++ r)))) := by simp
    rw [he]
    obtain ⟨h2, h3⟩ := fld_head f a (t :: (y ++ (t' :: (b' ++ r)))) hf
    simp only [pPlain, h2, h3, Bool.false_eq_true, if_false, pFld_writes hS f a (t :: (y ++ (t' :: (b' ++ r)))) hf (lit_fol o ho), Option.bind_some]
    rw [arithOf_some hS o (r := t :: (y ++ (t' :: (b' ++ r)))) ho]
    simp only [List.tail_cons]
    have ha : arithOf S (t' :: (b' ++ r)) = some o' := arithOf_some hS o' ho'
    rcases hy with ⟨n, hn⟩ | ⟨g, hg⟩
    · obtain ⟨g1, g2, _⟩ := pNum_writes n y (t' :: (b' ++ r)) hn (hnp ho')
      simp [g1, g2, ha]
    · obtain ⟨g2, g3⟩ := fld_head g y (t' :: (b' ++ r)) hg
      simp [g2, pFld_writes hS g y (t' :: (b' ++ r)) hg (lit_fol o' ho'), ha]

theorem fnOf_paren {r : List Tk} (h : S.at "(" r.tail = false) : fnOf S r = none := by
  rw [fnOf, if_neg (by rw [h]; exact Bool.false_ne_true)]

theorem fnOf_meta (hS : S.Law) {r : List Tk} (h : S.at "META" r = true) : fnOf S r = none := by
  rw [fnOf]
  split
  · exact find_none _ _ _ fun a ha => at_unique hS h (by
      have : ∀ a ∈ fnNs, ascii "META" ≠ ascii a.word := by decide +kernel
      exact this a ha)
  · rfl

theorem fld_fn (hS : S.Law) (f : Fld) (ts r : List Tk) (h : f.Writes S ts) (hr : S.at "(" r = false) : fnOf S (stripM S (ts ++ r)).2 = none := by
  obtain ⟨ms, b, rfl, h1, h2, h3⟩ := h
  have name : ∀ (n : SegName) (a c : List Tk), n.Writes S a → S.at "(" c = false → fnOf S (a ++ c) = none ∧ a ≠ [] := by
    intro n a c hn hc
    cases n with
    | ident s => obtain ⟨t, rfl, _⟩ := hn; exact ⟨fnOf_paren hc, by simp⟩
    | raw s => obtain ⟨t, rfl, _⟩ := hn; exact ⟨fnOf_paren hc, by simp⟩
    | char s => obtain ⟨t, rfl, _⟩ := hn; exact ⟨fnOf_paren hc, by simp⟩
    | doc => obtain ⟨t, x, y, rfl, hm, _⟩ := hn; exact ⟨fnOf_meta hS (r := t :: _) hm, by simp⟩
  have key : fnOf S (b ++ r) = none ∧ b ≠ [] := by
    generalize f.segs = ss at h3
    match ss, h3 with
    | [s], ⟨a, c, he, ha, hc⟩ =>
      subst he
      rw [List.append_assoc]
      obtain ⟨g1, g2⟩ := name _ a (c ++ r) ha (idx_follow hS hc hr)
      exact ⟨g1, by simp [g2]⟩
    | s :: s' :: ss, ⟨x, d, c, he, ⟨a, a', he', ha, ha'⟩, hd, _⟩ =>
      subst he he'
      have he : a ++ a' ++ d :: c ++ r = a ++ (a' ++ (d :: (c ++ r))) := by simp
      rw [he]
      obtain ⟨g1, g2⟩ := name _ a (a' ++ (d :: (c ++ r))) ha (idx_follow hS ha' (at_unique hS (at_cons hd) (by decide)))
      exact ⟨g1, by simp⟩
  have h2' : S.at "-" (b ++ r) = false := by
    cases b with
    | nil => exact absurd rfl key.2
    | cons t b => exact h2
  rw [List.append_assoc, stripM_minus f.neg ms (b ++ r) h1 h2']
  exact key.1

theorem num_fn (n : Num E) (ts r : List Tk) (h : n.Writes S ts) (hr : S.at "(" r = false) : fnOf S (stripM S (ts ++ r)).2 = none := by
  obtain ⟨neg, ms, t, rfl, h1, h2, _⟩ := num_head h
  rw [List.append_assoc, stripM_minus neg ms ([t] ++ r) h1 h2]
  exact fnOf_paren hr

theorem arith_paren (hS : S.Law) (o : Arith) {t : Tk} {b : List Tk} (ht : S.lit (ascii o.word) t = true) : S.at "(" (t :: b) = false :=
  at_unique hS (at_cons ht) (by cases o <;> decide)

theorem lit_fn (hS : S.Law) (l : Lit E) (ts r : List Tk) (h : l.Writes S ts) (hr : Fol S sideW r) : fnOf S (stripM S (ts ++ r)).2 = none := by
  have hp := hr.not hS "(" (by decide)
  cases l with
  | num n => exact num_fn n ts r h hp
  | str s =>
    obtain ⟨t, rfl, h1, h2, h3⟩ := h
    have hs : stripM S ([t] ++ r) = (false, t :: r) := stripM_minus false [] (t :: r) ⟨by simp, rfl⟩ h1
    rw [hs]
    exact fnOf_paren hp

theorem term_fn (hS : S.Law) (many : Bool) (x : Term E) (ts r : List Tk) (h : x.Writes S many ts) (hr : Fol S sideW r) :
    fnOf S (stripM S (ts ++ r)).2 = none := by
  have hp := hr.not hS "(" (by decide)
  rcases h with h | ⟨hm, f, o, a, t, y, b, rfl, hf, ho, hy, hb⟩
  · cases x with
    | field f => exact fld_fn hS f ts r h hp
    | left n o f =>
      obtain ⟨a, t, b, rfl, hn, ho, _⟩ := h
      rw [List.append_assoc]
      exact num_fn n a _ hn (arith_paren hS o ho)
    | right f o n =>
      obtain ⟨a, t, b, rfl, hn, ho, _⟩ := h
      rw [List.append_assoc]
      exact fld_fn hS f a _ hn (arith_paren hS o ho)
    | both f o g =>
      obtain ⟨a, t, b, rfl, hn, ho, _⟩ := h
      rw [List.append_assoc]
      exact fld_fn hS f a _ hn (arith_paren hS o ho)
  · rw [List.append_assoc]
    exact fld_fn hS f a _ hf (arith_paren hS o ho)

theorem strip_fn (hS : S.Law) (k : FnN) (neg : Bool) (ms : List Tk) (t a : Tk) (r : List Tk) (hm : S.Minus neg ms) (ht : S.lit (ascii k.word) t = true)
    (ha : S.lit (ascii "(") a = true) : stripM S (ms ++ t :: a :: r) = (neg, t :: a :: r) ∧ fnOf S (t :: a :: r) = some k :=
  ⟨stripM_minus neg ms _ hm (at_unique hS (at_cons ht) (by
    cases k with
    | one n => cases n <;> decide
    | two n => cases n <;> decide
    | _ => decide)), fnOf_some hS k (at_cons ha) (at_cons ht)⟩

theorem close_fol {t : Tk} {r : List Tk} (h : S.lit (ascii ")") t = true) : Fol S sideW (t :: r) := Fol.cons _ _ h (by decide)
theorem comma_fol {t : Tk} {r : List Tk} (h : S.lit (ascii ",") t = true) : Fol S sideW (t :: r) := Fol.cons _ _ h (by decide)

mutual
  theorem pArg_fn (hS : S.Law) (many : Bool) : ∀ (f : Fn E) (n : Nat) (ts r : List Tk), f.Writes S many ts → ts.length < n →
      Got many (pArg S n (ts ++ r)) (.fn f) r
    | _, 0, _, _, _, hn => absurd hn (Nat.not_lt_zero _)
    | .pi neg, n + 1, ts, r, h, _ => by
      rw [Fn.Writes] at h
      obtain ⟨ms, t, a, b, rfl, hm, ht, ha, _⟩ := h
      obtain ⟨h1, h2⟩ := strip_fn hS .pi neg ms t a (b :: r) hm ht ha
      have he : ms ++ [t, a, b] ++ r = ms ++ t :: a :: (b :: r) := by simp
      refine .inl ?_
      rw [he, pArg, h1]
      simp only [h2]
      rfl
    | .e neg, n + 1, ts, r, h, _ => by
      rw [Fn.Writes] at h
      obtain ⟨ms, t, a, b, rfl, hm, ht, ha, _⟩ := h
      obtain ⟨h1, h2⟩ := strip_fn hS .e neg ms t a (b :: r) hm ht ha
      have he : ms ++ [t, a, b] ++ r = ms ++ t :: a :: (b :: r) := by simp
      refine .inl ?_
      rw [he, pArg, h1]
      simp only [h2]
      rfl
    | .one neg k x, n + 1, ts, r, h, hn => by
      rw [Fn.Writes] at h
      obtain ⟨ms, t, a, c, b, rfl, hm, ht, ha, hx, hb⟩ := h
      obtain ⟨h1, h2⟩ := strip_fn hS (.one k) neg ms t a (c ++ b :: r) hm ht ha
      have he : ms ++ t :: a :: (c ++ [b]) ++ r = ms ++ t :: a :: (c ++ b :: r) := by simp
      rw [he, pArg, h1]
      simp only [h2]
      refine Got.bind (pArg_arg hS many x n c (b :: r) hx (by simp only [List.length_append, List.length_cons, List.length_nil] at hn; omega) (close_fol hb)) (.inl rfl)
    | .two neg k x y, n + 1, ts, r, h, hn => by
      rw [Fn.Writes] at h
      obtain ⟨ms, t, a, c, m, c', b, rfl, hm, ht, ha, hx, hc, hy, hb⟩ := h
      obtain ⟨h1, h2⟩ := strip_fn hS (.two k) neg ms t a (c ++ m :: (c' ++ b :: r)) hm ht ha
      have he : ms ++ t :: a :: (c ++ m :: (c' ++ [b])) ++ r = ms ++ t :: a :: (c ++ m :: (c' ++ b :: r)) := by simp
      have hl : c.length < n ∧ c'.length < n := by simp only [List.length_append, List.length_cons, List.length_nil] at hn; omega
      rw [he, pArg, h1]
      simp only [h2]
      exact Got.bind (pArg_arg hS many x n c (m :: (c' ++ b :: r)) hx hl.1 (comma_fol hc))
        (Got.bind (pArg_arg hS many y n c' (b :: r) hy hl.2 (close_fol hb)) (.inl rfl))
  theorem pArg_arg (hS : S.Law) (many : Bool) : ∀ (x : Arg E) (n : Nat) (ts r : List Tk), x.Writes S many ts → ts.length < n → Fol S sideW r →
      Got many (pArg S n (ts ++ r)) x r
    | _, 0, _, _, _, hn, _ => absurd hn (Nat.not_lt_zero _)
    | .fn f, n + 1, ts, r, h, hn, _ => by
      rw [Arg.Writes] at h
      exact pArg_fn hS many f (n + 1) ts r h hn
    | .term t, n + 1, ts, r, h, hn, hr => by
      rw [Arg.Writes] at h
      rw [pArg]
      simp only [term_fn hS many t ts r h hr]
      exact pPlain_term hS many t ts r h hr
    | .lit l, n + 1, ts, r, h, hn, hr => by
      rw [Arg.Writes] at h
      rw [pArg]
      simp only [lit_fn hS l ts r h hr]
      exact .inl (pPlain_lit hS l ts r h hr)
end

/-! ### Conditions -/

theorem isBool_unique (hS : S.Law) {w : String} {ts : List Tk} (h : S.at w ts = true) (hw : ∀ b u, ascii w ≠ ascii (boolWord b u)) : S.isBool ts = false := by
  simp only [Scan.isBool, Bool.or_eq_false_iff]
  exact ⟨⟨⟨at_unique hS h (hw true true), at_unique hS h (hw true false)⟩, at_unique hS h (hw false true)⟩, at_unique hS h (hw false false)⟩

/-- A call begins with a minus sign or the name of a function and a parenthesis. -/
theorem fn_head (f : Fn E) (many : Bool) {ts : List Tk} (h : f.Writes S many ts) :
    S.at "-" ts = true ∨ ∃ (k : FnN) (t a : Tk) (r : List Tk), ts = t :: a :: r ∧ S.lit (ascii k.word) t = true := by
  have key : ∀ (neg : Bool) (ms : List Tk) (k : FnN) (t a : Tk) (r : List Tk), S.Minus neg ms → S.lit (ascii k.word) t = true →
      ts = ms ++ t :: a :: r → S.at "-" ts = true ∨ ∃ (k : FnN) (t a : Tk) (r : List Tk), ts = t :: a :: r ∧ S.lit (ascii k.word) t = true := by
    intro neg ms k t a r hm hk he
    cases ms with
    | nil => exact .inr ⟨k, t, a, r, he, hk⟩
    | cons m ms => rw [he]; exact .inl (hm.1 m (List.mem_cons_self ..))
  cases f with
  | pi neg => rw [Fn.Writes] at h; obtain ⟨ms, t, a, b, he, hm, ht, _⟩ := h; exact key neg ms .pi t a [b] hm ht he
  | e neg => rw [Fn.Writes] at h; obtain ⟨ms, t, a, b, he, hm, ht, _⟩ := h; exact key neg ms .e t a [b] hm ht he
  | one neg k x => rw [Fn.Writes] at h; obtain ⟨ms, t, a, c, b, he, hm, ht, _⟩ := h; exact key neg ms (.one k) t a _ hm ht he
  | two neg k x y => rw [Fn.Writes] at h; obtain ⟨ms, t, a, c, m, c', b, he, hm, ht, _⟩ := h; exact key neg ms (.two k) t a _ hm ht he

theorem fn_ne (k : FnN) (w : String) (hw : ∀ k ∈ fnNs, ascii k.word ≠ ascii w) : ascii k.word ≠ ascii w := hw k (by
  cases k with
  | one n => cases n <;> decide
  | two n => cases n <;> decide
  | _ => decide)

/-- A call does not begin with another word. -/
theorem fn_not (hS : S.Law) (f : Fn E) (many : Bool) {ts : List Tk} (h : f.Writes S many ts) (w : String) (h1 : ascii "-" ≠ ascii w)
    (hw : ∀ k ∈ fnNs, ascii k.word ≠ ascii w) : S.at w ts = false := by
  rcases fn_head f many h with h | ⟨k, t, a, r, rfl, hk⟩
  · exact at_unique hS h h1
  · exact at_unique hS (at_cons hk) (fn_ne k w hw)

theorem at_append {w : String} {ts r : List Tk} (h : ts ≠ []) : S.at w (ts ++ r) = S.at w ts := by
  cases ts with
  | nil => exact absurd rfl h
  | cons t ts => rfl

theorem isBool_append {ts r : List Tk} (h : ts ≠ []) : S.isBool (ts ++ r) = S.isBool ts := by
  simp only [Scan.isBool, at_append h]

theorem fld_ne {f : Fld} {ts : List Tk} (h : f.Writes S ts) : ts ≠ [] := by
  obtain ⟨ms, b, rfl, _, _, h3⟩ := h
  intro hc
  obtain ⟨rfl, rfl⟩ := List.append_eq_nil_iff.1 hc
  generalize f.segs = ss at h3
  match ss, h3 with
  | [s], ⟨a, b, he, ha, _⟩ => exact name_head ha (List.append_eq_nil_iff.1 he.symm).1
  | s :: s' :: ss, ⟨a, d, b, he, _⟩ => simp at he

theorem lit_ne {l : Lit E} {ts : List Tk} (h : l.Writes S ts) : ts ≠ [] := by
  cases l with
  | str s => obtain ⟨t, rfl, _⟩ := h; simp
  | num n => obtain ⟨ms, t, rfl, _⟩ := h; simp

theorem term_ne {many : Bool} {x : Term E} {ts : List Tk} (h : x.Writes S many ts) : ts ≠ [] := by
  rcases h with h | ⟨hm, f, o, a, t, y, b, rfl, _⟩
  · cases x with
    | field f => exact fld_ne h
    | left n o f => obtain ⟨a, t, b, rfl, _⟩ := h; simp
    | right f o n => obtain ⟨a, t, b, rfl, _⟩ := h; simp
    | both f o g => obtain ⟨a, t, b, rfl, _⟩ := h; simp
  · simp

theorem fn_ne_nil {f : Fn E} {many : Bool} {ts : List Tk} (h : f.Writes S many ts) : ts ≠ [] := by
  rcases fn_head f many h with h | ⟨k, t, a, r, rfl, hk⟩
  · intro hc; subst hc; cases h
  · simp

theorem side_ne {many : Bool} {s : Side E} {ts : List Tk} (h : s.Writes S many ts) : ts ≠ [] := by
  cases s with
  | fn f => exact fn_ne_nil h
  | bool b u => obtain ⟨t, rfl, _⟩ := h; simp
  | term t => exact term_ne h.1
  | lit l => exact lit_ne h.1

theorem pSide_writes (hS : S.Law) (many : Bool) (s : Side E) (ts r : List Tk) (h : s.Writes S many ts) (hr : Fol S sideW r) :
    Got many (pSide S (ts ++ r)) s r := by
  have hl : ts.length < (ts ++ r).length + 1 := by rw [List.length_append]; omega
  cases s with
  | bool b u =>
    obtain ⟨t, rfl, ht⟩ := h
    refine .inl ?_
    rw [pSide, boolOf_some hS b u (r := [t] ++ r) ht]
    rfl
  | fn f =>
    have hb : S.isBool (ts ++ r) = false := by
      rw [isBool_append (fn_ne_nil h)]
      simp only [Scan.isBool, Bool.or_eq_false_iff]
      exact ⟨⟨⟨fn_not hS f many h _ (by decide) (by decide +kernel), fn_not hS f many h _ (by decide) (by decide +kernel)⟩,
        fn_not hS f many h _ (by decide) (by decide +kernel)⟩, fn_not hS f many h _ (by decide) (by decide +kernel)⟩
    rw [pSide, boolOf_none hb]
    exact Got.bind (pArg_fn hS many f _ ts r h hl) (.inl rfl)
  | term t =>
    rw [pSide, boolOf_none (by rw [isBool_append (term_ne h.1)]; exact h.2)]
    exact Got.bind (pArg_arg hS many (.term t) _ ts r (by rw [Arg.Writes]; exact h.1) hl hr) (.inl rfl)
  | lit l =>
    rw [pSide, boolOf_none (by rw [isBool_append (lit_ne h.1)]; exact h.2)]
    exact Got.bind (pArg_arg hS many (.lit l) _ ts r (by rw [Arg.Writes]; exact h.1) hl hr) (.inl rfl)

/-- How a term or value begins: a parenthesis comes second only after `META`. -/
def PlainHead (S : Scan E) (ts : List Tk) : Prop := S.at "-" ts = true ∨ S.at "META" ts = true ∨ S.at "(" ts.tail = false

theorem fld_plain (hS : S.Law) (f : Fld) (ts r : List Tk) (h : f.Writes S ts) (hr : S.at "(" r = false) : PlainHead S (ts ++ r) := by
  obtain ⟨ms, b, rfl, h1, h2, h3⟩ := h
  cases ms with
  | cons m ms => exact .inl (h1.1 m (List.mem_cons_self ..))
  | nil =>
    have name : ∀ (n : SegName) (a c : List Tk), n.Writes S a → S.at "(" c = false → PlainHead S (a ++ c) := by
      intro n a c hn hc
      cases n with
      | ident s => obtain ⟨t, rfl, _⟩ := hn; exact .inr (.inr hc)
      | raw s => obtain ⟨t, rfl, _⟩ := hn; exact .inr (.inr hc)
      | char s => obtain ⟨t, rfl, _⟩ := hn; exact .inr (.inr hc)
      | doc => obtain ⟨t, x, y, rfl, hm, _⟩ := hn; exact .inr (.inl hm)
    rw [List.nil_append]
    generalize f.segs = ss at h3
    match ss, h3 with
    | [s], ⟨a, c, he, ha, hc⟩ =>
      subst he
      rw [List.append_assoc]
      exact name _ a (c ++ r) ha (idx_follow hS hc hr)
    | s :: s' :: ss, ⟨x, d, c, he, ⟨a, a', he', ha, ha'⟩, hd, _⟩ =>
      subst he he'
      have he : a ++ a' ++ d :: c ++ r = a ++ (a' ++ (d :: (c ++ r))) := by simp
      rw [he]
      exact name _ a (a' ++ (d :: (c ++ r))) ha (idx_follow hS ha' (at_unique hS (at_cons hd) (by decide)))

theorem num_plain (n : Num E) (ts r : List Tk) (h : n.Writes S ts) (hr : S.at "(" r = false) : PlainHead S (ts ++ r) := by
  obtain ⟨neg, ms, t, rfl, h1, h2, _⟩ := num_head h
  cases ms with
  | cons m ms => exact .inl (h1.1 m (List.mem_cons_self ..))
  | nil => exact .inr (.inr hr)

theorem lit_plain (l : Lit E) (ts r : List Tk) (h : l.Writes S ts) (hr : S.at "(" r = false) : PlainHead S (ts ++ r) := by
  cases l with
  | num n => exact num_plain n ts r h hr
  | str s => obtain ⟨t, rfl, _⟩ := h; exact .inr (.inr hr)

theorem term_plain (hS : S.Law) (many : Bool) (x : Term E) (ts r : List Tk) (h : x.Writes S many ts) (hr : S.at "(" r = false) : PlainHead S (ts ++ r) := by
  rcases h with h | ⟨hm, f, o, a, t, y, b, rfl, hf, ho, hy, hb⟩
  · cases x with
    | field f => exact fld_plain hS f ts r h hr
    | left n o f =>
      obtain ⟨a, t, b, rfl, hn, ho, _⟩ := h
      rw [List.append_assoc]
      exact num_plain n a _ hn (arith_paren hS o ho)
    | right f o n =>
      obtain ⟨a, t, b, rfl, hn, ho, _⟩ := h
      rw [List.append_assoc]
      exact fld_plain hS f a _ hn (arith_paren hS o ho)
    | both f o g =>
      obtain ⟨a, t, b, rfl, hn, ho, _⟩ := h
      rw [List.append_assoc]
      exact fld_plain hS f a _ hn (arith_paren hS o ho)
  · rw [List.append_assoc]
    exact fld_plain hS f a _ hf (arith_paren hS o ho)

/-- A side does not begin with another word and a parenthesis. -/
theorem side_head (hS : S.Law) (many : Bool) (s : Side E) (ts r : List Tk) (h : s.Writes S many ts) (hr : S.at "(" r = false) (w : String)
    (hw : ∀ v ∈ "-" :: "META" :: fnNs.map FnN.word, ascii v ≠ ascii w) : (S.at w (ts ++ r) && S.at "(" (ts ++ r).tail) = false := by
  have plain : PlainHead S (ts ++ r) → (S.at w (ts ++ r) && S.at "(" (ts ++ r).tail) = false := by
    rintro (h | h | h)
    · rw [at_unique hS h (hw _ (by simp))]; rfl
    · rw [at_unique hS h (hw _ (by simp))]; rfl
    · rw [h, Bool.and_false]
  cases s with
  | bool b u => obtain ⟨t, rfl, _⟩ := h; exact plain (.inr (.inr hr))
  | term t => exact plain (term_plain hS many t ts r h.1 hr)
  | lit l => exact plain (lit_plain l ts r h.1 hr)
  | fn f =>
    have := fn_not hS f many h w (hw _ (by simp)) (fun k hk => hw _ (by
      refine List.mem_cons_of_mem _ (List.mem_cons_of_mem _ (List.mem_map_of_mem hk))))
    rw [at_append (fn_ne_nil h), this]
    rfl

theorem pCond_side {many : Bool} (hS : S.Law) (s : Side E) (ts r : List Tk) (h : s.Writes S many ts) (hn : S.at "NOT" ts = false) (hr : Fol S sideW r) :
    pCond S (ts ++ r) = (pSide S (ts ++ r)).bind fun s => pRest S s.1 s.2 := by
  have hp := hr.not hS "(" (by decide)
  have h1 := side_head hS many s ts r h hp "REGEXP_CONTAINS" (by decide +kernel)
  have h2 := side_head hS many s ts r h hp "EXISTS" (by decide +kernel)
  have hne := side_ne h
  cases ts with
  | nil => exact absurd rfl hne
  | cons t ts =>
    have h0 : S.lit (ascii "NOT") t = false := hn
    simp only [List.cons_append, Scan.at, List.tail_cons] at h1 h2
    rw [List.cons_append, pCond, if_neg (by rw [h0]; exact Bool.false_ne_true)]
    rw [if_neg, if_neg]
    · intro h; rw [Scan.at.eq_def] at h; simp only [h2] at h; cases h
    · intro h; rw [Scan.at.eq_def] at h; simp only [h1] at h; cases h

theorem cond_side {r : List Tk} (h : Fol S condW r) : Fol S sideW r := h.mono (by decide)

theorem check_reads (hS : S.Law) (neg : Bool) (w : String) (hw : w = "NULL" ∨ w = "MISSING") (ts r : List Tk) (h : checkWrites S neg w ts) (s : Side E) :
    Fol S sideW (ts ++ r) ∧ pRest S s (ts ++ r) = some (if w = "NULL" then .null s neg else .missing s neg, r) := by
  obtain ⟨a, n, b, rfl, ha, hn, hb⟩ := h
  refine ⟨Fol.cons (r := n ++ [b] ++ r) "IS" ha (by decide), ?_⟩
  have hbn : S.at "NOT" (b :: r) = false := at_unique hS (at_cons hb) (by rcases hw with rfl | rfl <;> decide)
  have hat : S.at "IS" (a :: (n ++ [b]) ++ r) = true := ha
  rw [pRest.eq_def, if_pos hat]
  cases neg with
  | true =>
    obtain ⟨t, rfl, ht⟩ := hn
    have ht' : S.at "NOT" ([t] ++ [b] ++ r) = true := ht
    simp only [List.cons_append, List.tail_cons, List.nil_append] at ht' ⊢
    simp only [ht', if_true, List.tail_cons]
    rcases hw with rfl | rfl
    · rw [if_pos (at_cons hb)]; rfl
    · rw [if_neg (by rw [at_unique hS (at_cons hb) (by decide)]; exact Bool.false_ne_true), if_pos (at_cons hb)]; rfl
  | false =>
    subst hn
    simp only [List.cons_append, List.tail_cons, List.nil_append, hbn, Bool.false_eq_true, if_false]
    rcases hw with rfl | rfl
    · rw [if_pos (at_cons hb)]; rfl
    · rw [if_neg (by rw [at_unique hS (at_cons hb) (by decide)]; exact Bool.false_ne_true), if_pos (at_cons hb)]; rfl

theorem pCond_writes (hS : S.Law) (many : Bool) : ∀ (c : Cond E) (ts r : List Tk), c.Writes S many ts → Fol S condW r → Got many (pCond S (ts ++ r)) c r
  | .not c, ts, r, h, hr => by
    obtain ⟨t, r', rfl, ht, hc⟩ := h
    rw [List.cons_append, pCond, if_pos ht]
    exact Got.bind (pCond_writes hS many c r' r hc hr) (.inl rfl)
  | .bool b u, ts, r, h, hr => by
    have hs : (Side.bool b u : Side E).Writes S many ts := h
    have hn : S.at "NOT" ts = false := by
      obtain ⟨t, rfl, ht⟩ := h
      exact at_unique hS (at_cons ht) (by cases b <;> cases u <;> decide)
    rw [pCond_side hS _ ts r hs hn (cond_side hr)]
    refine Got.bind (pSide_writes hS many _ ts r hs (cond_side hr)) (.inl ?_)
    simp only [pRest]
    rw [if_neg (by rw [hr.not hS _ (by decide)]; exact Bool.false_ne_true), chOf_none hS hr]
  | .regex x l, ts, r, h, hr => by
    obtain ⟨t, a, c, m, c', b, rfl, ht, ha, hx, hm, hl, hb⟩ := h
    have he : t :: a :: (c ++ m :: (c' ++ [b])) ++ r = t :: a :: (c ++ m :: (c' ++ b :: r)) := by simp
    have h0 : S.lit (ascii "NOT") t = false := at_unique (w := "NOT") hS (at_cons (r := []) ht) (by decide)
    rw [he, pCond, if_neg (by rw [h0]; exact Bool.false_ne_true), if_pos (by rw [ht]; exact ha)]
    refine Got.bind (pArg_arg hS many x _ c (m :: (c' ++ b :: r)) hx (by simp; omega) (comma_fol hm)) ?_
    exact Got.bind (pArg_arg hS many (.lit l) _ c' (b :: r) (by rw [Arg.Writes]; exact hl) (by simp; omega) (close_fol hb)) (.inl rfl)
  | .regexFn x f, ts, r, h, hr => by
    obtain ⟨t, a, c, m, c', b, rfl, ht, ha, hx, hm, hl, hb⟩ := h
    have he : t :: a :: (c ++ m :: (c' ++ [b])) ++ r = t :: a :: (c ++ m :: (c' ++ b :: r)) := by simp
    have h0 : S.lit (ascii "NOT") t = false := at_unique (w := "NOT") hS (at_cons (r := []) ht) (by decide)
    rw [he, pCond, if_neg (by rw [h0]; exact Bool.false_ne_true), if_pos (by rw [ht]; exact ha)]
    refine Got.bind (pArg_arg hS many x _ c (m :: (c' ++ b :: r)) hx (by simp; omega) (comma_fol hm)) ?_
    exact Got.bind (pArg_arg hS many (.fn f) _ c' (b :: r) (by rw [Arg.Writes]; exact hl) (by simp; omega) (close_fol hb)) (.inl rfl)
  | .exist f, ts, r, h, hr => by
    obtain ⟨t, a, c, b, rfl, ht, ha, hf, hb⟩ := h
    have he : t :: a :: (c ++ [b]) ++ r = t :: a :: (c ++ b :: r) := by simp
    have h0 : S.lit (ascii "NOT") t = false := at_unique (w := "NOT") hS (at_cons (r := []) ht) (by decide)
    have h1 : S.lit (ascii "REGEXP_CONTAINS") t = false := at_unique (w := "REGEXP_CONTAINS") hS (at_cons (r := []) ht) (by decide)
    refine .inl ?_
    rw [he, pCond, if_neg (by rw [h0]; exact Bool.false_ne_true), if_neg (by rw [h1]; exact Bool.false_ne_true), if_pos (by rw [ht]; exact ha)]
    simp only [List.tail_cons]
    rw [pFld_writes hS f c (b :: r) hf (side_fld (close_fol hb))]
    rfl
  | .null s neg, ts, r, h, hr => by
    obtain ⟨a, b, rfl, hs, hn, hc⟩ := h
    obtain ⟨h1, h2⟩ := check_reads hS neg "NULL" (.inl rfl) b r hc s
    rw [List.append_assoc, pCond_side hS _ a (b ++ r) hs hn h1]
    exact Got.bind (pSide_writes hS many s a (b ++ r) hs h1) (.inl h2)
  | .missing s neg, ts, r, h, hr => by
    obtain ⟨a, b, rfl, hs, hn, hc⟩ := h
    obtain ⟨h1, h2⟩ := check_reads hS neg "MISSING" (.inr rfl) b r hc s
    rw [List.append_assoc, pCond_side hS _ a (b ++ r) hs hn h1]
    exact Got.bind (pSide_writes hS many s a (b ++ r) hs h1) (.inl h2)
  | .cmp l c0 c1 y, ts, r, h, hr => by
    obtain ⟨a, t, m, b, rfl, hl, hn, ht, hm, hy⟩ := h
    have he : a ++ t :: (m ++ b) ++ r = a ++ (t :: (m ++ (b ++ r))) := by simp
    have hf : Fol S sideW (t :: (m ++ (b ++ r))) := Fol.cons _ _ ht (by cases c0 <;> decide)
    rw [he, pCond_side hS _ a _ hl hn hf]
    refine Got.bind (pSide_writes hS many l a _ hl hf) ?_
    have hi : S.at "IS" (t :: (m ++ (b ++ r))) = false := at_unique hS (at_cons ht) (by cases c0 <;> decide)
    have hc : chOf S (t :: (m ++ (b ++ r))) = some c0 := chOf_some hS c0 (at_cons ht)
    have key : chOf S (m ++ (b ++ r)) = c1 ∧ (if (chOf S (m ++ (b ++ r))).isSome then (m ++ (b ++ r)).tail else m ++ (b ++ r)) = b ++ r := by
      cases c1 with
      | some c =>
        obtain ⟨t', rfl, ht'⟩ := hm
        have : chOf S ([t'] ++ (b ++ r)) = some c := chOf_some hS c (at_cons ht')
        rw [this]
        exact ⟨rfl, rfl⟩
      | none =>
        obtain ⟨rfl, hm⟩ := hm
        have : chOf S ([] ++ (b ++ r)) = none := find_none _ _ _ fun c _ => by
          rw [List.nil_append, at_append (side_ne hy)]; exact hm c
        rw [this]
        exact ⟨rfl, rfl⟩
    simp only [pRest]
    rw [if_neg (by rw [hi]; exact Bool.false_ne_true), hc]
    show Got many ((pSide S (if (chOf S (m ++ (b ++ r))).isSome then (m ++ (b ++ r)).tail else m ++ (b ++ r))).bind fun y =>
      some (Cond.cmp l c0 (chOf S (m ++ (b ++ r))) y.1, y.2)) (Cond.cmp l c0 c1 y) r
    rw [key.2, key.1]
    exact Got.bind (pSide_writes hS many y b r hy (cond_side hr)) (.inl rfl)

/-! ### Filters -/

theorem or_fol {t : Tk} {r : List Tk} (h : S.lit (ascii "OR") t = true) : Fol S condW (t :: r) := Fol.cons _ _ h (by decide)
theorem and_fol {t : Tk} {r : List Tk} (h : S.lit (ascii "AND") t = true) : Fol S condW (t :: r) := Fol.cons _ _ h (by decide)

theorem cond_ne {many : Bool} {c : Cond E} {ts : List Tk} (h : c.Writes S many ts) : ts ≠ [] := by
  cases c with
  | not c => obtain ⟨t, r, rfl, _⟩ := h; simp
  | bool b u => obtain ⟨t, rfl, _⟩ := h; simp
  | regex x l => obtain ⟨t, a, c, m, c', b, rfl, _⟩ := h; simp
  | regexFn x l => obtain ⟨t, a, c, m, c', b, rfl, _⟩ := h; simp
  | exist f => obtain ⟨t, a, c, b, rfl, _⟩ := h; simp
  | null s neg => obtain ⟨a, b, rfl, hs, _⟩ := h; simp [side_ne hs]
  | missing s neg => obtain ⟨a, b, rfl, hs, _⟩ := h; simp [side_ne hs]
  | cmp l c0 c1 y => obtain ⟨a, t, m, b, rfl, _⟩ := h; simp

mutual
  theorem pFilt_writes (hS : S.Law) (many : Bool) : ∀ (f : Filt E) (n : Nat) (ts r : List Tk), f.Writes S many ts → 3 * ts.length + 3 ≤ n →
      Fol S [")"] r → Got many (pFilt S n (ts ++ r)) f r
    | _, 0, _, _, _, hn, _ => absurd hn (by omega)
    | .one c, n + 1, ts, r, h, hn, hr => by
      rw [Filt.Writes] at h
      rw [pFilt]
      refine Got.bind (pConj_writes hS many c n ts r h (by omega) (hr.mono (by decide))) (.inl ?_)
      rw [if_neg (by rw [hr.not hS _ (by decide)]; exact Bool.false_ne_true)]
    | .or c g, n + 1, ts, r, h, hn, hr => by
      rw [Filt.Writes] at h
      obtain ⟨a, t, b, rfl, hc, ht, hg⟩ := h
      have hl : a.length + b.length + 1 = (a ++ t :: b).length := by simp only [List.length_append, List.length_cons]; omega
      rw [List.append_assoc, List.cons_append, pFilt]
      refine Got.bind (pConj_writes hS many c n a (t :: (b ++ r)) hc (by omega) (Fol.cons _ _ ht (by decide))) ?_
      rw [if_pos (at_cons ht)]
      exact Got.bind (pFilt_writes hS many g n b r hg (by omega) hr) (.inl rfl)
  theorem pConj_writes (hS : S.Law) (many : Bool) : ∀ (f : Conj E) (n : Nat) (ts r : List Tk), f.Writes S many ts → 3 * ts.length + 2 ≤ n →
      Fol S ["OR", ")"] r → Got many (pConj S n (ts ++ r)) f r
    | _, 0, _, _, _, hn, _ => absurd hn (by omega)
    | .one c, n + 1, ts, r, h, hn, hr => by
      rw [Conj.Writes] at h
      rw [pConj]
      refine Got.bind (pItem_writes hS many c n ts r h (by omega) (hr.mono (by decide))) (.inl ?_)
      rw [if_neg (by rw [hr.not hS _ (by decide)]; exact Bool.false_ne_true)]
    | .and c g, n + 1, ts, r, h, hn, hr => by
      rw [Conj.Writes] at h
      obtain ⟨a, t, b, rfl, hc, ht, hg⟩ := h
      have hl : a.length + b.length + 1 = (a ++ t :: b).length := by simp only [List.length_append, List.length_cons]; omega
      rw [List.append_assoc, List.cons_append, pConj]
      refine Got.bind (pItem_writes hS many c n a (t :: (b ++ r)) hc (by omega) (and_fol ht)) ?_
      rw [if_pos (at_cons ht)]
      exact Got.bind (pConj_writes hS many g n b r hg (by omega) hr) (.inl rfl)
  theorem pItem_writes (hS : S.Law) (many : Bool) : ∀ (i : Item E) (n : Nat) (ts r : List Tk), i.Writes S many ts → 3 * ts.length + 1 ≤ n →
      Fol S condW r → Got many (pItem S n (ts ++ r)) i r
    | _, 0, _, _, _, hn, _ => absurd hn (by omega)
    | .paren f, n + 1, ts, r, h, hn, hr => by
      rw [Item.Writes] at h
      obtain ⟨t, c, b, rfl, ht, hf, hb⟩ := h
      have hl : c.length + 2 = (t :: (c ++ [b])).length := by simp
      have he : t :: (c ++ [b]) ++ r = t :: (c ++ (b :: r)) := by simp
      rw [he, pItem, if_pos (at_cons ht)]
      exact Got.bind (pFilt_writes hS many f n c (b :: r) hf (by omega) (Fol.cons _ _ hb (by decide))) (.inl rfl)
    | .cond c, n + 1, ts, r, h, hn, hr => by
      rw [Item.Writes] at h
      rw [pItem, if_neg (by rw [at_append (cond_ne h.1), h.2]; exact Bool.false_ne_true)]
      exact Got.bind (pCond_writes hS many c ts r h.1 hr) (.inl rfl)
end

/-! ### Theorems -/

/-- C81: tokens that are the text of a filter are not the text of another one (even if several operators in a row are allowed). -/
theorem C81_unique (hS : S.Law) (f f' : Filt E) (ts : List Tk) (h : f.Writes S false ts) (h' : f'.Writes S true ts) : f' = f := by
  have h1 := pFilt_writes hS false f _ ts [] h (Nat.le_refl _) (fun _ _ h => by cases h)
  have h2 := pFilt_writes hS true f' _ ts [] h' (Nat.le_refl _) (fun _ _ h => by cases h)
  rcases h1 with h1 | ⟨hm, _⟩
  · rcases h2 with h2 | ⟨_, h2⟩
    · rw [h1] at h2; cases h2; rfl
    · rw [h1] at h2; cases h2
  · cases hm

/-- What is assumed of the parser library: what it returns for a text is a reading of the tokens of the text.  If there are
several arithmetic operators in a row, nothing is assumed of the stored term. -/
def Reads (S : Scan E) (lex : List Nat → List Tk) (parse : List Nat → Option (FilterExpression E)) : Prop :=
  ∀ text s, parse text = some s → ∃ f : Filt E, f.Writes S true (lex text) ∧ (f.Writes S false (lex text) → s = f.build)

/-- C81 for parsers: a text of `f` that is accepted is read as `f`. -/
theorem C81_parse (hS : S.Law) (lex : List Nat → List Tk) (parse : List Nat → Option (FilterExpression E)) (hp : Reads S lex parse) (text : List Nat)
    (f : Filt E) (h : f.Writes S false (lex text)) : parse text = none ∨ parse text = some f.build := by
  cases hr : parse text with
  | none => exact .inl rfl
  | some s =>
    obtain ⟨f', h1, h2⟩ := hp text s hr
    have := C81_unique hS f f' _ h h1
    subst this
    rw [h2 h]
    exact .inr rfl

/-- C81 with C51: a filter that is accepted matches the documents for which it is true.  (The restrictions are those of
`C51_match_partial`.) -/
theorem C81_match_partial (hS : S.Law) (lex : List Nat → List Tk) (N : Env E) (X : Fns E) (C : Transform.Comp E) (parse : List Nat → Option (FilterExpression E))
    (hp : Reads S lex parse) (text : List Nat) (f : Filt E) (ht : text ≠ []) (h : f.Writes S false (lex text)) (ha : parse text ≠ none)
    (hv : f.valid N) (hs : ∀ c ∈ f.conds, c.Simple N C) (hc : true ∉ f.consts) {data : List Nat} {d : D} (hd : Match.Begins data d) (hseen : Seen f.paths d) :
    ∃ df, getMatcher N C parse text = .ok (some df) ∧ ∀ m, Match.Ready df m →
      ∃ m', Match.run X df m data = .ok (some (f.truth N X C id d), m') :=
  C51_match_partial N X C parse text f ht ((C81_parse hS lex parse hp text f h).resolve_left ha) hv hs hc hd hseen

/-! ### A parenthesis after `NOT` -/

theorem num_paren (hS : S.Law) {n : Num E} {p : Tk} {r : List Tk} (hp : S.lit (ascii "(") p = true) (hk : p.kind = .punct) : ¬ n.Writes S (p :: r) := by
  rintro ⟨ms, t, he, ht, h⟩
  have hm : ∀ neg, ¬ (S.Minus neg ms ∧ (t.kind = .int ∨ t.kind = .float)) := by
    rintro neg ⟨h1, h2⟩
    cases ms with
    | nil =>
      obtain ⟨rfl, _⟩ := List.cons.inj he
      rw [hk] at h2
      rcases h2 with h | h <;> cases h
    | cons m ms =>
      obtain ⟨rfl, _⟩ := List.cons.inj he
      have := (hS _ _ (h1.1 p (List.mem_cons_self ..))).symm.trans (hS _ _ hp)
      exact absurd this (by decide)
  cases n with
  | int neg v => exact hm neg ⟨h.1, .inl h.2.1⟩
  | float neg v => exact hm neg ⟨h.1, .inr h.2.1⟩

theorem name_paren (hS : S.Law) {n : SegName} {p : Tk} {a r : List Tk} (hp : S.lit (ascii "(") p = true) (hk : p.kind = .punct) (b : List Tk)
    (he : p :: r = a ++ b) : ¬ n.Writes S a := by
  intro h
  cases n with
  | ident s => obtain ⟨t, rfl, h, _⟩ := h; obtain ⟨rfl, _⟩ := List.cons.inj he; rw [hk] at h; cases h
  | raw s => obtain ⟨t, rfl, h, _⟩ := h; obtain ⟨rfl, _⟩ := List.cons.inj he; rw [hk] at h; cases h
  | char s => obtain ⟨t, rfl, h, _⟩ := h; obtain ⟨rfl, _⟩ := List.cons.inj he; rw [hk] at h; cases h
  | doc =>
    obtain ⟨t, x, y, rfl, h, _⟩ := h
    obtain ⟨rfl, _⟩ := List.cons.inj he
    exact absurd ((hS _ _ h).symm.trans (hS _ _ hp)) (by decide)

theorem fld_paren (hS : S.Law) {f : Fld} {p : Tk} {a r : List Tk} (hp : S.lit (ascii "(") p = true) (hk : p.kind = .punct) (c : List Tk)
    (he : p :: r = a ++ c) : ¬ f.Writes S a := by
  rintro ⟨ms, b, rfl, h1, h2, h3⟩
  cases ms with
  | cons m ms =>
    obtain ⟨rfl, _⟩ := List.cons.inj he
    exact absurd ((hS _ _ (h1.1 p (List.mem_cons_self ..))).symm.trans (hS _ _ hp)) (by decide)
  | nil =>
    rw [List.nil_append] at he
    generalize f.segs = ss at h3
    match ss, h3 with
    | [s], ⟨x, y, hxy, hx, hy⟩ =>
      subst hxy
      rw [List.append_assoc] at he
      exact name_paren hS hp hk _ he hx
    | s :: s' :: ss, ⟨x, d, y, hxy, ⟨u, v, huv, hu, _⟩, _, _⟩ =>
      subst hxy huv
      rw [List.append_assoc, List.append_assoc] at he
      exact name_paren hS hp hk _ he hu

theorem num_paren' (hS : S.Law) {n : Num E} {p : Tk} {a r : List Tk} (hp : S.lit (ascii "(") p = true) (hk : p.kind = .punct) (c : List Tk)
    (he : p :: r = a ++ c) : ¬ n.Writes S a := by
  cases a with
  | nil => rintro ⟨ms, t, h, _⟩; cases ms <;> cases h
  | cons x a =>
    obtain ⟨rfl, _⟩ := List.cons.inj he
    exact num_paren hS hp hk

theorem side_paren (hS : S.Law) {many : Bool} {s : Side E} {p : Tk} {a r : List Tk} (hp : S.lit (ascii "(") p = true) (hk : p.kind = .punct) (c : List Tk)
    (he : p :: r = a ++ c) : ¬ s.Writes S many a := by
  intro h
  cases s with
  | bool b u =>
    obtain ⟨t, rfl, h⟩ := h
    obtain ⟨rfl, _⟩ := List.cons.inj he
    exact absurd ((hS _ _ h).symm.trans (hS _ _ hp)) (by cases b <;> cases u <;> decide)
  | fn f =>
    have h1 := fn_not hS f many h "(" (by decide) (by decide)
    have hne := fn_ne_nil h
    cases a with
    | nil => exact hne rfl
    | cons x a =>
      obtain ⟨rfl, _⟩ := List.cons.inj he
      rw [at_cons hp] at h1
      cases h1
  | term t =>
    rcases h.1 with h | ⟨_, f, o, x, t, y, z, rfl, hf, _⟩
    · cases t with
      | field f => exact fld_paren hS hp hk c he h
      | left n o f => obtain ⟨x, t, y, rfl, hn, _⟩ := h; rw [List.append_assoc] at he; exact num_paren' hS hp hk _ he hn
      | right f o n => obtain ⟨x, t, y, rfl, hn, _⟩ := h; rw [List.append_assoc] at he; exact fld_paren hS hp hk _ he hn
      | both f o g => obtain ⟨x, t, y, rfl, hn, _⟩ := h; rw [List.append_assoc] at he; exact fld_paren hS hp hk _ he hn
    · rw [List.append_assoc] at he; exact fld_paren hS hp hk _ he hf
  | lit l =>
    cases l with
    | num n => exact num_paren' hS hp hk c he h.1
    | str s => obtain ⟨t, rfl, _, h, _⟩ := h.1; obtain ⟨rfl, _⟩ := List.cons.inj he; rw [hk] at h; cases h

theorem cond_paren (hS : S.Law) {many : Bool} {c : Cond E} {p : Tk} {r : List Tk} (hp : S.lit (ascii "(") p = true) (hk : p.kind = .punct) :
    ¬ c.Writes S many (p :: r) := by
  have word : ∀ w, ascii w ≠ ascii "(" → S.lit (ascii w) p ≠ true := fun w hw h => hw ((hS _ _ h).symm.trans (hS _ _ hp))
  intro h
  cases c with
  | not c => obtain ⟨t, r', he, h, _⟩ := h; obtain ⟨rfl, _⟩ := List.cons.inj he; exact word _ (by decide) h
  | bool b u => exact side_paren (s := .bool b u) (many := many) hS hp hk [] (List.append_nil _).symm h
  | regex x l => obtain ⟨t, a, c, m, c', b, he, h, _⟩ := h; obtain ⟨rfl, _⟩ := List.cons.inj he; exact word _ (by decide) h
  | regexFn x l => obtain ⟨t, a, c, m, c', b, he, h, _⟩ := h; obtain ⟨rfl, _⟩ := List.cons.inj he; exact word _ (by decide) h
  | exist f => obtain ⟨t, a, c, b, he, h, _⟩ := h; obtain ⟨rfl, _⟩ := List.cons.inj he; exact word _ (by decide) h
  | null s neg => obtain ⟨a, b, he, hs, _⟩ := h; exact side_paren hS hp hk b he hs
  | missing s neg => obtain ⟨a, b, he, hs, _⟩ := h; exact side_paren hS hp hk b he hs
  | cmp l c0 c1 y => obtain ⟨a, t, m, b, he, hs, _⟩ := h; exact side_paren hS hp hk _ he hs

theorem cond_not_paren (hS : S.Law) {many : Bool} {c : Cond E} {t p : Tk} {r r' : List Tk} (ht : S.lit (ascii "NOT") t = true) (hp : S.lit (ascii "(") p = true)
    (hk : p.kind = .punct) {a : List Tk} (he : t :: p :: r = a ++ r') : ¬ c.Writes S many a := by
  have word : ∀ w, ascii w ≠ ascii "NOT" → S.lit (ascii w) t ≠ true := fun w hw h => hw ((hS _ _ h).symm.trans (hS _ _ ht))
  have side : ∀ (s : Side E) (x y : List Tk), t :: p :: r = x ++ y → s.Writes S many x → S.at "NOT" x = true := by
    intro s x y he hs
    cases x with
    | nil => exact absurd rfl (side_ne hs)
    | cons x' x => obtain ⟨rfl, _⟩ := List.cons.inj he; exact ht
  intro h
  cases c with
  | not c =>
    obtain ⟨t', x, rfl, _, h⟩ := h
    have he := (List.cons.inj he).2
    cases x with
    | nil => exact cond_ne h rfl
    | cons p' x => obtain ⟨rfl, _⟩ := List.cons.inj he; exact cond_paren hS hp hk h
  | bool b u => obtain ⟨t', rfl, h⟩ := h; obtain ⟨rfl, _⟩ := List.cons.inj he; exact word _ (by cases b <;> cases u <;> decide) h
  | regex x l => obtain ⟨t, a, c, m, c', b, rfl, h, _⟩ := h; obtain ⟨rfl, _⟩ := List.cons.inj he; exact word _ (by decide) h
  | regexFn x l => obtain ⟨t, a, c, m, c', b, rfl, h, _⟩ := h; obtain ⟨rfl, _⟩ := List.cons.inj he; exact word _ (by decide) h
  | exist f => obtain ⟨t, a, c, b, rfl, h, _⟩ := h; obtain ⟨rfl, _⟩ := List.cons.inj he; exact word _ (by decide) h
  | null s neg =>
    obtain ⟨x, y, rfl, hs, hn, _⟩ := h
    rw [List.append_assoc] at he
    rw [side s x _ he hs] at hn; cases hn
  | missing s neg =>
    obtain ⟨x, y, rfl, hs, hn, _⟩ := h
    rw [List.append_assoc] at he
    rw [side s x _ he hs] at hn; cases hn
  | cmp l c0 c1 y =>
    obtain ⟨x, t', m, b, rfl, hs, hn, _⟩ := h
    rw [List.append_assoc] at he
    rw [side l x _ he hs] at hn; cases hn

theorem item_not_paren (hS : S.Law) {many : Bool} {i : Item E} {t p : Tk} {r r' : List Tk} (ht : S.lit (ascii "NOT") t = true) (hp : S.lit (ascii "(") p = true)
    (hk : p.kind = .punct) {a : List Tk} (he : t :: p :: r = a ++ r') : ¬ i.Writes S many a := by
  cases i with
  | paren f =>
    rw [Item.Writes]
    rintro ⟨t', c, b, rfl, h, _⟩
    obtain ⟨rfl, _⟩ := List.cons.inj he
    exact absurd ((hS _ _ h).symm.trans (hS _ _ ht)) (by decide)
  | cond c => rw [Item.Writes]; exact fun h => cond_not_paren hS ht hp hk he h.1

theorem conj_not_paren (hS : S.Law) {many : Bool} {i : Conj E} {t p : Tk} {r r' : List Tk} (ht : S.lit (ascii "NOT") t = true) (hp : S.lit (ascii "(") p = true)
    (hk : p.kind = .punct) {a : List Tk} (he : t :: p :: r = a ++ r') : ¬ i.Writes S many a := by
  cases i with
  | one i => rw [Conj.Writes]; exact item_not_paren hS ht hp hk he
  | and i g => rw [Conj.Writes]; rintro ⟨x, o, y, rfl, h, _⟩; rw [List.append_assoc] at he; exact item_not_paren hS ht hp hk he h

/-- A text that begins with `NOT (` has no reading. -/
theorem C81_not_paren (hS : S.Law) {many : Bool} (f : Filt E) (t p : Tk) (r : List Tk) (ht : S.lit (ascii "NOT") t = true) (hp : S.lit (ascii "(") p = true)
    (hk : p.kind = .punct) : ¬ f.Writes S many (t :: p :: r) := by
  cases f with
  | one i => rw [Filt.Writes]; exact conj_not_paren hS ht hp hk (List.append_nil _).symm
  | or i g => rw [Filt.Writes]; rintro ⟨x, o, y, he, h, _⟩; exact conj_not_paren hS ht hp hk he h

/-- … and no matcher. -/
theorem C81_not_paren_error (hS : S.Law) (lex : List Nat → List Tk) (N : Env E) (C : Transform.Comp E) (parse : List Nat → Option (FilterExpression E))
    (hp : Reads S lex parse) (text : List Nat) (t p : Tk) (r : List Tk) (hl : lex text = t :: p :: r) (ht : S.lit (ascii "NOT") t = true)
    (hq : S.lit (ascii "(") p = true) (hk : p.kind = .punct) : getMatcher N C parse text = .ok none := by
  have : parse text = none := by
    cases hr : parse text with
    | none => rfl
    | some s =>
      obtain ⟨f, h, _⟩ := hp text s hr
      rw [hl] at h
      exact absurd h (C81_not_paren hS f t p r ht hq hk)
  have hn : newParser parse text = none := by rw [newParser, this, ite_self]
  rw [getMatcher, hn]

/-! ### Examples -/

/-- A scanner with numbers of one digit; quoted texts are not keywords. -/
def demoScan : Scan demoExt :=
  ⟨fun w t => t.text = w && (t.kind = .ident || t.kind = .punct), fun s => s.head?.map fun c => BitVec.ofNat 64 (c - 48), fun _ => none⟩

theorem demoScan_law : demoScan.Law := by
  intro w t h
  simp only [demoScan, Bool.and_eq_true, decide_eq_true_eq] at h
  exact h.1

def wordT (s : String) : Tk := ⟨.ident, ascii s⟩
def charT (s : String) : Tk := ⟨.punct, ascii s⟩
def digitT (s : String) : Tk := ⟨.int, ascii s⟩

/-- The tokens of `a == 1 AND (NOT EXISTS(b) OR b - 1 <> 2 OR FALSE)`. -/
def demoTokens : List Tk :=
  [wordT "a", charT "=", charT "=", digitT "1", wordT "AND", charT "(", wordT "NOT", wordT "EXISTS", charT "(", wordT "b", charT ")", wordT "OR",
    wordT "b", charT "-", digitT "1", charT "<", charT ">", digitT "2", wordT "OR", wordT "FALSE", charT ")"]

theorem fld_writes_demo (c : String) (n : Nat) (hc : ascii c = [n]) (hn : n ≠ 45) : (fld n).Writes demoScan [wordT c] := by
  refine ⟨[], [wordT c], rfl, ⟨fun t h => absurd h (by simp), rfl⟩, ?_, ⟨[wordT c], [], rfl, ⟨_, rfl, rfl, hc⟩, rfl⟩⟩
  have : ascii "-" = [45] := by decide
  simp [Scan.at, demoScan, wordT, hc, this, hn]

theorem num_writes_demo (s : String) (v : BitVec 64) (h : demoScan.int (ascii s) = some v) (hn : demoScan.lit (ascii "-") (digitT s) = false) :
    (Num.int (E := demoExt) false v).Writes demoScan [digitT s] := ⟨[], _, rfl, hn, ⟨fun t h => absurd h (by simp), rfl⟩, rfl, h⟩

theorem demoFilt_writes (many : Bool) : demoFilt.Writes demoScan many demoTokens := by
  rw [demoFilt, Filt.Writes, Conj.Writes]
  refine ⟨[wordT "a", charT "=", charT "=", digitT "1"], _, _, rfl, ?_, by decide, ?_⟩
  · rw [Item.Writes]
    refine ⟨⟨[wordT "a"], _, [charT "="], [digitT "1"], rfl, ⟨.inl (fld_writes_demo "a" 97 (by decide) (by decide)), by decide⟩, by decide, by decide,
      ⟨_, rfl, by decide⟩, ⟨num_writes_demo "1" _ (by decide) (by decide), by decide⟩⟩, by decide⟩
  · rw [Conj.Writes, Item.Writes]
    refine ⟨charT "(", [wordT "NOT", wordT "EXISTS", charT "(", wordT "b", charT ")", wordT "OR", wordT "b", charT "-", digitT "1", charT "<", charT ">",
      digitT "2", wordT "OR", wordT "FALSE"], charT ")", rfl, by decide, ?_, by decide⟩
    rw [Filt.Writes]
    refine ⟨[wordT "NOT", wordT "EXISTS", charT "(", wordT "b", charT ")"], _, _, rfl, ?_, by decide, ?_⟩
    · rw [Conj.Writes, Item.Writes]
      exact ⟨⟨_, _, rfl, by decide, _, _, [wordT "b"], _, rfl, by decide, by decide, fld_writes_demo "b" 98 (by decide) (by decide), by decide⟩, by decide⟩
    · rw [Filt.Writes]
      refine ⟨[wordT "b", charT "-", digitT "1", charT "<", charT ">", digitT "2"], _, [wordT "FALSE"], rfl, ?_, by decide, ?_⟩
      · rw [Conj.Writes, Item.Writes]
        refine ⟨⟨[wordT "b", charT "-", digitT "1"], _, [charT ">"], [digitT "2"], rfl, ⟨.inl ⟨[wordT "b"], _, _, rfl,
          fld_writes_demo "b" 98 (by decide) (by decide), by decide, num_writes_demo "1" _ (by decide) (by decide)⟩, by decide⟩, by decide, by decide,
          ⟨_, rfl, by decide⟩, ⟨num_writes_demo "2" _ (by decide) (by decide), by decide⟩⟩, by decide⟩
      · rw [Filt.Writes, Conj.Writes, Item.Writes]
        exact ⟨⟨_, rfl, by decide⟩, by decide⟩

example (f : Filt demoExt) (h : f.Writes demoScan true demoTokens) : f = demoFilt := C81_unique demoScan_law demoFilt f _ (demoFilt_writes false) h

theorem demo_reads : Reads demoScan (fun _ => demoTokens) (fun _ => some demoFilt.build) := by
  intro text s h
  cases h
  exact ⟨demoFilt, demoFilt_writes true, fun _ => rfl⟩

example : ∃ df, getMatcher demoEnv demoComp (fun _ => some demoFilt.build) [120] = .ok (some df) ∧ ∀ m, Match.Ready df m →
    ∃ m', Match.run Match.demoFns df m Match.demoDoc = .ok (some (demoFilt.truth demoEnv Match.demoFns demoComp id docA1), m') :=
  C81_match_partial demoScan_law _ demoEnv _ demoComp _ demo_reads [120] demoFilt (by simp) (demoFilt_writes false) (by simp) (by decide) demoFilt_simple
    (by decide) docA1_text (seen_of_check (by decide))

/-- `NOT (a = 1)` -/
example (f : Filt demoExt) : ¬ f.Writes demoScan true [wordT "NOT", charT "(", wordT "a", charT "=", digitT "1", charT ")"] :=
  C81_not_paren demoScan_law f _ _ _ (by decide) (by decide) rfl

/-- A parser that accepts nothing is allowed. -/
example : getMatcher demoEnv demoComp (fun _ => none) [120] = .ok none :=
  C81_not_paren_error demoScan_law (fun _ => [wordT "NOT", charT "("]) demoEnv demoComp (fun _ => none) (fun _ _ h => by cases h) [120] _ _ [] rfl (by decide)
    (by decide) rfl

end Verif.Filter
