import Verif.FastVal.Math

/-!
# Model of the function calls of `resolveFunc` (fastMatcher.go) and the one-argument functions of fastval_math.go

The functions of Go's `math` package and the date parser are parameters (`Fns`).
-/

namespace Verif.FastVal

/-- One-argument functions that apply a `float64` function through `genericFastValFloatOp`, fastval_math.go:177-239. -/
inductive UnF where
  | sqrt | acos | asin | atan | cos | sin | tan | exp | ln | log | ceil | floor | degrees | radians
  deriving DecidableEq, Repr

/-- Two-argument functions that apply a `float64` function, fastval_math.go:225-231. -/
inductive BinF where
  | pow | atan2
  deriving DecidableEq, Repr

/-- The function names of constants.go:12-38 that `resolveFunc` accepts; `other` stands for every other name. -/
inductive FName where
  | abs | round | date | neg | add | sub | mul | div | mod
  | un (f : UnF)
  | bin (f : BinF)
  | other
  deriving DecidableEq, Repr

/-- Library functions and constants; `un` is not used for `degrees` and `radians`. -/
structure Fns (E : Ext) where
  un : UnF → E.F → E.F
  bin : BinF → E.F → E.F → E.F
  /-- the constant `0.5` of fastval_math.go:11 and 13 -/
  half : E.F
  /-- the constant `180` of fastval_math.go:17 and 21 -/
  deg : E.F
  /-- the constant `math.Pi` -/
  pi : E.F
  /-- the parsing of byte strings inside `FastValDateFunc`, fastval_date.go:39-68 -/
  date : List Nat → Option E.T

variable {E : Ext}

/-- `floatMathRound`, fastval_math.go:9-14; `int` has 64 bits. -/
def floatMathRound (X : Fns E) (f : E.F) : E.F :=
  if E.lt f E.zero then E.ofInt (E.toInt (E.sub f X.half)) else E.ofInt (E.toInt (E.add f X.half))

/-- The `float64` function of a one-argument function: `mathDegreeFunc` and `mathRadiansFunc`, fastval_math.go:16-22, the others
from the library. -/
def unOp (X : Fns E) : UnF → E.F → E.F
  | .degrees, rad => E.div (E.mul rad X.deg) X.pi
  | .radians, deg => E.div (E.mul deg X.pi) X.deg
  | f, x => X.un f x

/-- `FastValMathRound`, fastval_math.go:24-38. -/
def mathRound (X : Fns E) (a : FV E) : FV E :=
  if a.d.ty.isFloat then (if a.d.asFloat.2 = false then invalidV else ⟨.float (floatMathRound X a.d.asFloat.1), false⟩)
  else if a.d.ty.isInt || a.d.ty.isUInt then a
  else invalidV

/-- `FastValMathAbs`, fastval_math.go:40-57: a signed integer goes through `float64`. -/
def mathAbs (a : FV E) : FV E :=
  if a.d.ty.isUInt then a
  else if a.d.asFloat.2 = false then invalidV
  else if a.d.ty.isFloat then ⟨.float (E.abs a.d.asFloat.1), false⟩
  else if a.d.ty.isInt then ⟨.int (E.toInt (E.abs a.d.asFloat.1)), false⟩
  else invalidV

/-- `NewTimeFastVal` of a parsed time, or invalid. -/
def timeV (o : Option E.T) : FV E :=
  match o with
  | some t => ⟨.time t, false⟩
  | none => invalidV

/-- `FastValDateFunc`, fastval_date.go:35-81.  For a Go string the parsing is that of `GetNewTimeFastVal`. -/
def dateFunc (X : Fns E) (a : FV E) : FV E :=
  match a.d with
  | .time _ => a
  | .jsonStr s | .binStr s => timeV (X.date s)
  | .str s => timeV (E.parseTime s)
  | _ => invalidV

/-- The `switch` of `resolveFunc`, fastMatcher.go:119-205, on resolved parameters; a missing parameter is an index out of
range, surplus ones are ignored. -/
def applyFn (X : Fns E) : FName → List (FV E) → Res (FV E)
  | .abs, p :: _ => .ok (mathAbs p)
  | .round, p :: _ => .ok (mathRound X p)
  | .date, p :: _ => .ok (dateFunc X p)
  | .neg, p :: _ => .ok (mathNeg p.d)
  | .un f, p :: _ => .ok (opFloat p.d (unOp X f))
  | .bin f, p :: q :: _ => op2Floats p.d q.d (X.bin f)
  | .add, p :: q :: _ => mathAdd p.d q.d
  | .sub, p :: q :: _ => mathSub p.d q.d
  | .mul, p :: q :: _ => mathMul p.d q.d
  | .div, p :: q :: _ => mathDiv p.d q.d
  | .mod, p :: q :: _ => mathMod p.d q.d
  | _, _ => .panic

/-- Number of parameters the `switch` reads; parameters beyond are not resolved. -/
def FName.arity : FName → Nat
  | .abs | .round | .date | .neg | .un _ => 1
  | .bin _ | .add | .sub | .mul | .div | .mod => 2
  | .other => 0

end Verif.FastVal
