import Verif.Transform.Model

/-!
# Model of filterExprParser.go (and the parts of constants.go and pcre_wrapper*.go it uses)

The struct types `FE*` are what the parser library participle fills in; a Go pointer is an `Option`, a slice of pointers is a
list whose elements are not nil (participle appends only allocated structs), and a nil slice is the empty list.  The methods
`OutputExpression` return an expression or an error: `none` is an error (the message is not modelled, nor the partial
expression that some of them return next to an error, which no caller uses).  Evaluating the message of an error calls
`String`; where that can dereference nil the model panics.

participle itself (grammar from struct tags to filled-in structs) is not modelled.  `FEAndCondition` and
`FEAndConditionWrapper` (lines 157-212) are not reachable from `FilterExpression` and are left out.

The recursive types are written with their own option and list types, since the nesting of `Option` inside mutual types is
awkward: `OInner.none` is a nil `*FEInnerExpression` and so on.
-/

namespace Verif.Filter
open Verif.FastVal Verif.Expr

/-! ### constants.go:166-185 -/

/-- The rest of a line up to some `)`. -/
def closes : List Nat → Bool
  | [] => false
  | c :: r => c = 41 || (c ≠ 10 && closes r)

/-- `.+\)` at the start of a text. -/
def dotClose : List Nat → Bool
  | [] => false
  | c :: r => c ≠ 10 && closes r

def stripPrefix : List Nat → List Nat → Option (List Nat)
  | [], s => some s
  | _ :: _, [] => none
  | p :: ps, c :: s => if p = c then stripPrefix ps s else none

/-- One of the four patterns at the start of a text. -/
def pcreHere (s : List Nat) : Bool :=
  [ascii "(?=", ascii "(?<", ascii "(?!", ascii "(?<!"].any fun p => match stripPrefix p s with
    | some r => dotClose r
    | none => false

/-- `tokenIsPcreValueType`, constants.go:178-185: one of the patterns of lines 167-170 somewhere in the text. -/
def isPcre : List Nat → Bool
  | [] => false
  | c :: s => pcreHere (c :: s) || isPcre s

/-! ### Library functions and build options -/

structure Env (E : Ext) where
  /-- `math.Pi` and `math.E` -/
  pi : E.F
  e : E.F
  /-- `fmt.Sprintf("%v", f)` -/
  fmtV : E.F → List Nat
  /-- `validTimeChecker`, fastval_date.go:20-23 -/
  validTime : List Nat → Bool
  /-- built with the tag `pcre` (pcre_wrapper_pcre.go, pcre_wrapper_nopcre.go) -/
  pcre : Bool

variable {E : Ext}

/-- An expression or an error. -/
abbrev Out (E : Ext) := Res (Option (Expr E))

/-- `if err != nil { return …, err }` -/
def andThen {α β : Type} (x : Res (Option α)) (f : α → Res (Option β)) : Res (Option β) :=
  x >>= fun o => match o with
    | none => .ok none
    | some a => f a

/-- `MakePcreExpression`, pcre_wrapper_pcre.go:34-36 and pcre_wrapper_nopcre.go. -/
def makePcre (N : Env E) (s : List Nat) : Option (Expr E) :=
  if N.pcre then some (.pcre (.json (.str s))) else none

/-! ### Booleans, lines 315-370 -/

structure FEBoolean where
  tVal : Option Bool
  tVal1 : Option Bool
  fVal : Option Bool
  fVal1 : Option Bool

/-- `GetBool`, lines 336-347. -/
def FEBoolean.get (f : FEBoolean) : Bool :=
  if f.tVal = some true then true
  else if f.tVal1 = some true then true
  else if f.fVal = some true then false
  else if f.fVal1 = some true then false
  else false

/-- `IsSet`, lines 349-351. -/
def FEBoolean.isSet (f : FEBoolean) : Bool :=
  f.tVal.isSome || f.tVal1.isSome || f.fVal.isSome || f.fVal1.isSome

/-- `OutputExpression`, lines 353-370. -/
def FEBoolean.out (f : FEBoolean) (asValue : Bool) : Out E :=
  if !f.isSet then .ok none
  else if f.get then .ok (some (if asValue then .value (.json (.bool true)) else .tru))
  else .ok (some (if asValue then .value (.json (.bool false)) else .fals))

/-! ### Paths, lines 617-722 -/

structure FEStringType where
  charVal : List Nat
  rawStr : List Nat
  strValue : List Nat

/-- `String`, lines 623-633. -/
def FEStringType.string (f : FEStringType) : List Nat :=
  if f.charVal ≠ [] then f.charVal
  else if f.rawStr ≠ [] then f.rawStr
  else if f.strValue ≠ [] then f.strValue
  else []

/-- `FEArrayIndex`, lines 672-676: the digits. -/
structure FEArrayIndex where
  idx : List Nat

/-- `String`, lines 678-680. -/
def FEArrayIndex.string (i : FEArrayIndex) : List Nat := ascii "[" ++ i.idx ++ ascii "]"

/-- `FEOnePathFuncNoArgName`, lines 706-708. -/
structure FEOnePathFuncNoArgName where
  meta_ : Option Bool

/-- `String`, lines 710-716. -/
def FEOnePathFuncNoArgName.string (n : FEOnePathFuncNoArgName) : List Nat :=
  if n.meta_ = some true then ascii "META" else ascii "?? (FEOnePathFuncNoArgName)"

structure FEOnePathFuncNoArg where
  name : Option FEOnePathFuncNoArgName

/-- `String`, lines 698-704. -/
def FEOnePathFuncNoArg.string (f : FEOnePathFuncNoArg) : List Nat :=
  match f.name with
  | some n => n.string ++ ascii "()"
  | none => ascii "?? (FEOnePathFuncNoArg)"

structure FEOnePathFuncExpr where
  noArg : Option FEOnePathFuncNoArg

/-- `String`, lines 686-692. -/
def FEOnePathFuncExpr.string (f : FEOnePathFuncExpr) : List Nat :=
  match f.noArg with
  | some n => n.string
  | none => ascii "?? FEOnePathFuncExpr"

structure FEOnePath where
  func : Option FEOnePathFuncExpr
  str : Option FEStringType
  arr : List FEArrayIndex

/-- Whether `String`, lines 641-654, dereferences nil. -/
def FEOnePath.stringPanics (f : FEOnePath) : Bool := f.func.isNone && f.str.isNone

/-- `OutputOnePath`, lines 657-670; the error message dereferences the nil `StrValue`. -/
def FEOnePath.out (f : FEOnePath) : Res (List Nat × List (List Nat)) :=
  let arr := f.arr.map FEArrayIndex.string
  match f.str with
  | some s => .ok (s.string, arr)
  | none => match f.func with
    | some g => .ok (g.string, arr)
    | none => .panic

structure FEField where
  neg : Option Bool
  path : List FEOnePath

/-- The loop of lines 595-604. -/
def outPath : List FEOnePath → Res (List (List Nat))
  | [] => .ok []
  | p :: ps => p.out >>= fun r => outPath ps >>= fun q => .ok (r.1 :: r.2 ++ q)

/-- `FuncExpr` with the given name. -/
def call (name : String) (ps : List (Expr E)) : Expr E := .func (ascii name) (Exprs.ofList ps)

/-- `OutputExpression`, lines 592-615. -/
def FEField.out (f : FEField) : Out E :=
  outPath f.path >>= fun p =>
  if f.neg.isSome then .ok (some (call "mathNegate" [.field ⟨0, p⟩])) else .ok (some (.field ⟨0, p⟩))

/-- Whether `String`, lines 580-590, panics. -/
def FEField.stringPanics (f : FEField) : Bool := f.path.any FEOnePath.stringPanics

/-! ### Arithmetic, lines 443-573 and 724-804 -/

structure FEMathOp where
  add : Option Bool
  sub : Option Bool
  mul : Option Bool
  div : Option Bool
  mod : Option Bool

/-- `OutputExpression`, lines 748-762: the name of the function. -/
def FEMathOp.out (f : FEMathOp) : Option String :=
  if f.add.isSome then some "mathAdd"
  else if f.sub.isSome then some "mathSubract"
  else if f.mul.isSome then some "mathMultiply"
  else if f.div.isSome then some "mathDivide"
  else if f.mod.isSome then some "mathModulo"
  else none

structure FEMathValue (E : Ext) where
  neg : Option Bool
  int : Option (BitVec 64)
  float : Option E.F

/-- `OutputExpression`, lines 788-804; an `int` has 64 bits; multiplication of a float by -1 is its negation. -/
def FEMathValue.out (f : FEMathValue E) : Out E :=
  match f.int with
  | some v => .ok (some (.value (.int (if f.neg = some true then -v else v))))
  | none => match f.float with
    | some x => .ok (some (.value (.json (.num (if f.neg = some true then E.neg x else x)))))
    | none => .ok none

/-- `String`, lines 770-786. -/
def FEMathValue.string (N : Env E) (f : FEMathValue E) : List Nat :=
  match f.int with
  | some v => fmtInt (if f.neg = some true then -v else v)
  | none => match f.float with
    | some x => N.fmtV (if f.neg = some true then E.neg x else x)
    | none => ascii "?? (FEMathValue)"

structure FEValue (E : Ext) where
  math : Option (FEMathValue E)
  str : Option (List Nat)

/-- `OutputExpression`, lines 821-831. -/
def FEValue.out (f : FEValue E) : Out E :=
  match f.str with
  | some s => .ok (some (.value (.json (.str s))))
  | none => match f.math with
    | some m => m.out
    | none => .ok none

/-- `String`, lines 811-819. -/
def FEValue.string (N : Env E) (f : FEValue E) : List Nat :=
  match f.str with
  | some s => s
  | none => match f.math with
    | some m => m.string N
    | none => ascii "?? (FEValue)"

structure FEType0 (E : Ext) where
  value : Option (FEMathValue E)
  op : Option FEMathOp
  field : Option FEField

/-- `OutputExpression`, lines 487-511. -/
def FEType0.out (f : FEType0 E) : Out E :=
  match f.op, f.value, f.field with
  | some op, some v, some fl => match op.out with
    | none => .ok none
    | some name => andThen v.out fun ve => andThen fl.out fun fe => .ok (some (call name [ve, fe]))
  | _, _, _ => .ok none

/-- Whether `String`, lines 475-485, panics. -/
def FEType0.stringPanics (f : FEType0 E) : Bool :=
  match f.op, f.value, f.field with
  | some _, some _, some fl => fl.stringPanics
  | _, _, _ => false

structure FEType1 (E : Ext) where
  field : Option FEField
  op : Option FEMathOp
  value : Option (FEMathValue E)
  other : Option FEField

/-- Whether `String`, lines 520-534, panics. -/
def FEType1.stringPanics (f : FEType1 E) : Bool :=
  (match f.field with
  | some fl => fl.stringPanics
  | none => false) || (f.value.isSome && f.op.isNone && f.other.isSome)

/-- `OutputExpression`, lines 536-573. -/
def FEType1.out (f : FEType1 E) : Out E :=
  match f.field with
  | none => if f.stringPanics then .panic else .ok none
  | some fl => match f.op, f.value, f.other with
    | some op, some v, _ => match op.out with
      | none => .ok none
      | some name => andThen fl.out fun fe => andThen v.out fun ve => .ok (some (call name [fe, ve]))
    | some op, none, some g => match op.out with
      | none => .ok none
      | some name => andThen fl.out fun fe => andThen g.out fun ge => .ok (some (call name [fe, ge]))
    | _, _, _ => fl.out

structure FEFieldWithMath (E : Ext) where
  type0 : Option (FEType0 E)
  type1 : Option (FEType1 E)
  fieldOnly : Option FEField

/-- `OutputExpression`, lines 459-467. -/
def FEFieldWithMath.out (f : FEFieldWithMath E) : Out E :=
  match f.type0 with
  | some t => t.out
  | none => match f.type1 with
    | some t => t.out
    | none => .ok none

/-- Whether `String`, lines 449-457, panics. -/
def FEFieldWithMath.stringPanics (f : FEFieldWithMath E) : Bool :=
  match f.type0 with
  | some t => t.stringPanics
  | none => match f.type1 with
    | some t => t.stringPanics
    | none => false

/-! ### Functions, lines 1035-1390 -/

structure FENoArgName where
  pi : Option Bool
  e : Option Bool

/-- `FEConstFuncNoArg.OutputExpression`, lines 1099-1109. -/
def noArgOut (N : Env E) : Option FENoArgName → Out E
  | none => .ok none
  | some n =>
    if n.pi = some true then .ok (some (.value (.json (.num N.pi))))
    else if n.e = some true then .ok (some (.value (.json (.num N.e))))
    else .ok none

structure FEOneArgName where
  abs : Option Bool := none
  acos : Option Bool := none
  asin : Option Bool := none
  atan : Option Bool := none
  ceil : Option Bool := none
  cos : Option Bool := none
  date : Option Bool := none
  degrees : Option Bool := none
  exp : Option Bool := none
  floor : Option Bool := none
  log : Option Bool := none
  ln : Option Bool := none
  sine : Option Bool := none
  tangent : Option Bool := none
  radians : Option Bool := none
  round : Option Bool := none
  sqrt : Option Bool := none

/-- `OutputExpression`, lines 1291-1329. -/
def FEOneArgName.out (n : FEOneArgName) : Option String :=
  if n.abs = some true then some "mathAbs"
  else if n.acos = some true then some "mathAcos"
  else if n.asin = some true then some "mathAsin"
  else if n.atan = some true then some "mathAtan"
  else if n.ceil = some true then some "mathCeil"
  else if n.cos = some true then some "mathCos"
  else if n.date = some true then some "date"
  else if n.degrees = some true then some "mathDegrees"
  else if n.exp = some true then some "mathExp"
  else if n.floor = some true then some "mathFloor"
  else if n.log = some true then some "mathLog"
  else if n.ln = some true then some "mathLn"
  else if n.sine = some true then some "mathSin"
  else if n.tangent = some true then some "mathTan"
  else if n.radians = some true then some "mathRadians"
  else if n.round = some true then some "mathRound"
  else if n.sqrt = some true then some "mathSqrt"
  else none

structure FETwoArgsName where
  atan2 : Option Bool
  power : Option Bool

/-- `OutputExpression`, lines 1382-1390. -/
def FETwoArgsName.out (n : FETwoArgsName) : Option String :=
  if n.atan2 = some true then some "mathAtan2"
  else if n.power = some true then some "mathPow"
  else none

mutual
  /-- `*FEConstFuncExpression`, lines 1037-1042.  The wrappers `FEConstFuncNoArg`, `FEConstFuncOneArg` and
  `FEConstFuncTwoArgs` are its three fields. -/
  inductive OFunc (E : Ext) where
    | none
    | some (neg : Option Bool) (noArg : Option (Option FENoArgName)) (one : OOne E) (two : OTwo E)

  /-- `*FEConstFuncOneArg`, lines 1194-1197. -/
  inductive OOne (E : Ext) where
    | none
    | some (name : Option FEOneArgName) (arg : OArg E)

  /-- `*FEConstFuncTwoArgs`, lines 1331-1335. -/
  inductive OTwo (E : Ext) where
    | none
    | some (name : Option FETwoArgsName) (arg0 arg1 : OArg E)

  /-- `*FEConstFuncArgument`, lines 1127-1131. -/
  inductive OArg (E : Ext) where
    | none
    | some (sub : OFunc E) (field : Option (FEFieldWithMath E)) (arg : Option (FEValue E))
end

def OFunc.isNil : OFunc E → Bool
  | .none => true
  | .some .. => false

def OArg.isNil : OArg E → Bool
  | .none => true
  | .some .. => false

mutual
  /-- Whether `String`, lines 1044-1059, panics. -/
  def OFunc.stringPanics : OFunc E → Bool
    | .none => true
    | .some _ (some _) _ _ => false
    | .some _ none (.some n a) _ => OOne.stringPanics (.some n a)
    | .some _ none .none t => OTwo.stringPanics t

  /-- `String`, lines 1199-1204. -/
  def OOne.stringPanics : OOne E → Bool
    | .none => false
    | .some none _ => false
    | .some (some _) .none => false
    | .some (some _) a => OArg.stringPanics a

  /-- `String`, lines 1337-1342; a nil pointer stands for the last branch of `FEConstFuncExpression.String`. -/
  def OTwo.stringPanics : OTwo E → Bool
    | .none => false
    | .some none _ _ => false
    | .some (some _) .none _ => false
    | .some (some _) (.some ..) .none => false
    | .some (some _) a b => OArg.stringPanics a || OArg.stringPanics b

  /-- `String`, lines 1133-1143. -/
  def OArg.stringPanics : OArg E → Bool
    | .none => true
    | .some _ _ (some _) => false
    | .some (.some n x o t) _ none => OFunc.stringPanics (.some n x o t)
    | .some .none (some f) none => f.stringPanics
    | .some .none none none => false
end

/-- `DATE` of a literal that is not a date, lines 1222-1226. -/
def badDate (N : Env E) (n : FEOneArgName) : OArg E → Bool
  | .some _ _ (some v) => n.date.isSome && !N.validTime (v.string N)
  | _ => false

mutual
  /-- `FEConstFuncExpression.OutputExpression`, lines 1061-1085. -/
  def OFunc.out (N : Env E) : OFunc E → Out E
    | .none => .panic
    | .some neg no one two =>
      andThen (match no with
        | some n => noArgOut N n
        | none => match one with
          | .some n a => OOne.out N (.some n a)
          | .none => OTwo.out N two)
        fun e => if neg = some true then .ok (some (call "mathNegate" [e])) else .ok (some e)

  /-- `FEConstFuncOneArg.OutputExpression`, lines 1206-1229. -/
  def OOne.out (N : Env E) : OOne E → Out E
    | .none => .panic
    | .some none _ => .ok none
    | .some (some _) .none => .ok none
    | .some (some n) (.some s f a) => match n.out with
      | none => .ok none
      | some name => andThen (OArg.out N (.some s f a)) fun e =>
        if badDate N n (.some s f a) then .ok none else .ok (some (call name [e]))

  /-- `FEConstFuncTwoArgs.OutputExpression`, lines 1344-1365; a nil pointer is the last branch of
  `FEConstFuncExpression.OutputExpression`. -/
  def OTwo.out (N : Env E) : OTwo E → Out E
    | .none => .ok none
    | .some none _ _ => .ok none
    | .some (some _) .none _ => .ok none
    | .some (some _) (.some ..) .none => .ok none
    | .some (some n) (.some s f a) (.some s' f' a') => match n.out with
      | none => .ok none
      | some name => andThen (OArg.out N (.some s f a)) fun e => andThen (OArg.out N (.some s' f' a')) fun e' =>
        .ok (some (call name [e, e']))

  /-- `FEConstFuncArgument.OutputExpression`, lines 1145-1155. -/
  def OArg.out (N : Env E) : OArg E → Out E
    | .none => .panic
    | .some _ _ (some v) => v.out
    | .some _ (some f) none => f.out
    | .some (.some neg no one two) none none => OFunc.out N (.some neg no one two)
    | .some .none none none => .ok none
end

/-! ### Boolean functions, lines 1157-1192 and 1392-1501 -/

structure FEArgRHS (E : Ext) where
  sub : OFunc E
  arg : Option (FEValue E)

/-- `OutputRegexExpression`, lines 1183-1192. -/
def FEArgRHS.outRegex (N : Env E) (f : FEArgRHS E) : Out E :=
  match f.arg with
  | none => if !f.sub.isNil && f.sub.stringPanics then .panic else .ok none
  | some v => if isPcre (v.string N) then .ok (makePcre N (v.string N)) else .ok (some (.regex (.json (.str (v.string N)))))

structure FEBoolTwoName where
  regex : Option Bool

structure FEBoolTwoArgs (E : Ext) where
  name : Option FEBoolTwoName
  arg0 : OArg E
  arg1 : Option (FEArgRHS E)

/-- `OutputExpression`, lines 1430-1455; the message of the error calls `String` of the name. -/
def FEBoolTwoArgs.out (N : Env E) (f : FEBoolTwoArgs E) : Out E :=
  match f.name with
  | none => .panic
  | some n =>
    if n.regex = some true then match f.arg0, f.arg1 with
      | .some s fl a, some r => andThen (OArg.out N (.some s fl a)) fun l => andThen (r.outRegex N) fun x => .ok (some (.cmp .like l x))
      | _, _ => .ok none
    else .ok none

structure FEExists where
  field : Option FEField

/-- `OutputExpression`, lines 1489-1501. -/
def FEExists.out (f : FEExists) : Out E :=
  match f.field with
  | some fl => andThen fl.out fun e => .ok (some (.exist e))
  | none => .ok none

structure FEBoolFunc (E : Ext) where
  two : Option (FEBoolTwoArgs E)
  exists_ : Option FEExists

/-- `OutputExpression`, lines 1407-1414. -/
def FEBoolFunc.out (N : Env E) (f : FEBoolFunc E) : Out E :=
  match f.two with
  | some t => t.out N
  | none => match f.exists_ with
    | some x => x.out
    | none => .ok none

structure FEBooleanExpr (E : Ext) where
  val : Option FEBoolean
  func : Option (FEBoolFunc E)

/-- `OutputExpression`, lines 305-313. -/
def FEBooleanExpr.out (N : Env E) (f : FEBooleanExpr E) : Out E :=
  match f.val with
  | some b => b.out false
  | none => match f.func with
    | some g => g.out N
    | none => .ok none

/-! ### Comparisons, lines 372-441 and 837-1033 -/

/-- `FELhs` and `FERhs`, lines 372-377 and 408-413, which have the same fields. -/
structure FESide (E : Ext) where
  func : OFunc E
  bool : Option FEBoolean
  field : Option (FEFieldWithMath E)
  value : Option (FEValue E)

/-- `OutputExpression`, lines 393-405 and 429-441. -/
def FESide.out (N : Env E) (f : FESide E) : Out E :=
  match f.field with
  | some m => m.out
  | none => match f.value with
    | some v => v.out
    | none => match f.func with
      | .some neg no one two => OFunc.out N (.some neg no one two)
      | .none => match f.bool with
        | some b => b.out true
        | none => .ok none

structure FEOpChar where
  not : Option Bool
  equal : Option Bool
  less : Option Bool
  greater : Option Bool

structure FECompareOp where
  c0 : Option FEOpChar
  c1 : Option FEOpChar

/-- `IsEqual`, lines 862-868. -/
def FECompareOp.isEqual (f : FECompareOp) : Bool :=
  (f.c0.any (·.equal.isSome) && f.c1.isNone) || (f.c0.any (·.equal.isSome) && f.c1.any (·.equal.isSome))

/-- `IsNotEqual`, lines 870-876. -/
def FECompareOp.isNotEqual (f : FECompareOp) : Bool :=
  (f.c0.any (·.not.isSome) && f.c1.any (·.equal.isSome)) || (f.c0.any (·.less.isSome) && f.c1.any (·.greater.isSome))

/-- `IsGreaterThan`, lines 878-881. -/
def FECompareOp.isGreater (f : FECompareOp) : Bool := f.c0.any (·.greater.isSome) && f.c1.isNone

/-- `IsGreaterThanOrEqualTo`, lines 883-886. -/
def FECompareOp.isGreaterEq (f : FECompareOp) : Bool := f.c0.any (·.greater.isSome) && f.c1.any (·.equal.isSome)

/-- `IsLessThan`, lines 888-891. -/
def FECompareOp.isLess (f : FECompareOp) : Bool := f.c0.any (·.less.isSome) && f.c1.isNone

/-- `IsLessThanOrEqualTo`, lines 893-896. -/
def FECompareOp.isLessEq (f : FECompareOp) : Bool := f.c0.any (·.less.isSome) && f.c1.any (·.equal.isSome)

/-- `OutputExpression`, lines 926-959: which comparison is made. -/
def FECompareOp.out (f : FECompareOp) : Option Cmp :=
  if f.isEqual then some .eq
  else if f.isNotEqual then some .ne
  else if f.isGreater then some .gt
  else if f.isGreaterEq then some .ge
  else if f.isLess then some .lt
  else if f.isLessEq then some .le
  else none

structure FECheckOp where
  not : Option Bool
  null : Option Bool
  missing : Option Bool

/-- `OutputExpression`, lines 1009-1033, with lines 967-993. -/
def FECheckOp.out (f : FECheckOp) (e : Expr E) : Option (Expr E) :=
  let isNot : Bool := f.not = some true
  let isMissing : Bool := f.missing = some true
  let isNull : Bool := f.null = some true
  if isNot && isMissing then some (.exist e)
  else if !isNot && isMissing then some (.notExist e)
  else if !isNot && isNull then some (.cmp .eq e (.value (.json .null)))
  else if isNot && isNull then some (.not (.cmp .eq e (.value (.json .null))))
  else none

structure FEOperand (E : Ext) where
  bool : Option (FEBooleanExpr E)
  lhs : Option (FESide E)
  op : Option FECompareOp
  rhs : Option (FESide E)
  check : Option FECheckOp

/-- `OutputExpression`, lines 264-288. -/
def FEOperand.out (N : Env E) (f : FEOperand E) : Out E :=
  match f.bool with
  | some b => b.out N
  | none => match f.lhs with
    | none => .ok none
    | some l => andThen (l.out N) fun le => match f.check with
      | some c => .ok (c.out le)
      | none => match f.op, f.rhs with
        | some op, some r => andThen (r.out N) fun re => .ok (op.out.map fun c => .cmp c le re)
        | _, _ => .ok none

/-! ### The Boolean structure, lines 52-155 and 214-242 -/

mutual
  /-- `*FEInnerExpression`, lines 72-74. -/
  inductive OInner (E : Ext) where
    | none
    | some (l : LAnd E)

  /-- `[]*FEInnerAndExpression`; the elements are lines 102-104. -/
  inductive LAnd (E : Ext) where
    | nil
    | cons (l : LTerm E) (rest : LAnd E)

  /-- `[]*FESubExprOrTerm`; the elements are lines 132-135. -/
  inductive LTerm (E : Ext) where
    | nil
    | cons (sub : OInner E) (cond : OCond E) (rest : LTerm E)

  /-- `*FECondition`, lines 214-217. -/
  inductive OCond (E : Ext) where
    | none
    | some (not : OCond E) (operand : Option (FEOperand E))
end

/-- `FECondition.OutputExpression`, lines 233-242. -/
def OCond.out (N : Env E) : OCond E → Out E
  | .none => .panic
  | .some (.some c o) _ => andThen (OCond.out N (.some c o)) fun e => .ok (Option.some (Expr.not e))
  | .some .none (Option.some o) => o.out N
  | .some .none Option.none => .ok Option.none

mutual
  /-- `FEInnerExpression.OutputExpression`, lines 87-100. -/
  def OInner.out (N : Env E) : OInner E → Out E
    | .none => .panic
    | .some .nil => .ok none
    | .some (.cons l r) => andThen (LAnd.out N (.cons l r)) fun es => .ok (some (.or es))

  /-- The loop of lines 92-98. -/
  def LAnd.out (N : Env E) : LAnd E → Res (Option (Exprs E))
    | .nil => .ok (some .nil)
    | .cons .nil _ => .ok none
    | .cons (.cons s c r) rest =>
      andThen (LTerm.out N (.cons s c r)) fun es => andThen (LAnd.out N rest) fun es' => .ok (some (.cons (.and es) es'))

  /-- The loop of lines 122-128 with `FESubExprOrTerm.OutputExpression`, lines 147-155. -/
  def LTerm.out (N : Env E) : LTerm E → Res (Option (Exprs E))
    | .nil => .ok (some .nil)
    | .cons sub cond rest =>
      andThen (match sub with
        | .some l => OInner.out N (.some l)
        | .none => match cond with
          | .some c o => OCond.out N (.some c o)
          | .none => .ok none)
        fun e => andThen (LTerm.out N rest) fun es => .ok (some (.cons e es))
end

/-- `FilterExpression`, lines 52-54. -/
structure FilterExpression (E : Ext) where
  expr : OInner E

/-- `OutputExpression`, lines 64-70. -/
def FilterExpression.out (N : Env E) (f : FilterExpression E) : Out E :=
  match f.expr with
  | .none => .ok none
  | .some l => OInner.out N (.some l)

/-- `NewFilterExpressionParser`, lines 1513-1528: `parse` is participle on the whole text (`none` is an error or a recovered
panic). -/
def newParser (parse : List Nat → Option (FilterExpression E)) (text : List Nat) : Option (FilterExpression E) :=
  if text = [] then none else parse text

/-- `GetFilterExpressionMatcher`, lines 1530-1546. -/
def getMatcher (N : Env E) (C : Transform.Comp E) (parse : List Nat → Option (FilterExpression E)) (text : List Nat) :
    Res (Option (Match.Def E)) :=
  match newParser parse text with
  | none => .ok none
  | some f => andThen (f.out N) fun e => Transform.transform C 0 [e] >>= fun df => .ok (some df)

end Verif.Filter
