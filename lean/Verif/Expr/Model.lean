import Verif.Match.Model

/-!
# Model of expression.go, expression_utils.go, expression_compact.go, expressionstats.go

Strings are lists of bytes.  The three loop types and the seven binary comparison types of expression.go are one
constructor each, with a tag.
-/

namespace Verif.Expr
open Verif.FastVal
open Verif.Match (Mode)

/-- ASCII text as bytes. -/
def ascii (s : String) : List Nat := s.toList.map Char.toNat

mutual
  /-- What `encoding/json` decodes into an `interface{}`: nil, bool, float64, string, []interface{},
  map[string]interface{} (a map is a list of bindings with distinct keys). -/
  inductive J (E : Ext) where
    | null
    | bool (b : Bool)
    | num (f : E.F)
    | str (s : List Nat)
    | arr (es : Js E)
    | obj (ms : Jms E)

  inductive Js (E : Ext) where
    | nil
    | cons (v : J E) (rest : Js E)

  inductive Jms (E : Ext) where
    | nil
    | cons (key : List Nat) (v : J E) (rest : Jms E)
end

/-- Go values of an `interface{}` that the code distinguishes (`NewFastVal`, fastval.go:933-978); `other` is any other
type. -/
inductive GoVal (E : Ext) where
  | json (j : J E)
  | int (v : BitVec 64)
  | uint (v : BitVec 64)
  | bytes (s : List Nat)
  | regexp (r : E.R)
  | pcre (r : E.R)
  | time (t : E.T)
  | other

/-- `NewFastVal`, fastval.go:933-978 (a `float32` is converted to `float64` by the caller of the model). -/
def newFastVal {E : Ext} : GoVal E → Data E
  | .int v => .int v
  | .uint v => .uint v
  | .json (.num f) => .float f
  | .json (.bool true) => .tru
  | .json (.bool false) => .fals
  | .json (.str s) => .str s
  | .bytes s => .bin s
  | .regexp r => .regex r
  | .pcre r => .pcre r
  | .time t => .time t
  | .json .null => .null
  | .json (.arr _) => .invalid
  | .json (.obj _) => .invalid
  | .other => .invalid

/-- `FieldExpr`, expression.go:112-115; variable 0 is the document. -/
structure Field where
  root : Int
  path : List (List Nat)
  deriving DecidableEq, Repr

/-- `EqualsExpr` … `LikeExpr`, expression.go:195-256. -/
inductive Cmp where
  | eq | ne | lt | le | gt | ge | like
  deriving DecidableEq, Repr

mutual
  /-- `Expression`, expression.go.  `loop` is `AnyInExpr`, `EveryInExpr` or `AnyEveryInExpr`. -/
  inductive Expr (E : Ext) where
    | tru
    | fals
    | value (v : GoVal E)
    | time (v : GoVal E)
    | regex (v : GoVal E)
    | pcre (v : GoVal E)
    | not (e : Expr E)
    | and (es : Exprs E)
    | or (es : Exprs E)
    | field (f : Field)
    | func (name : List Nat) (ps : Exprs E)
    | loop (m : Mode) (var : Int) (inE sub : Expr E)
    | exist (e : Expr E)
    | notExist (e : Expr E)
    | cmp (c : Cmp) (l r : Expr E)

  inductive Exprs (E : Ext) where
    | nil
    | cons (e : Expr E) (rest : Exprs E)
end

variable {E : Ext}

def Exprs.toList : Exprs E → List (Expr E)
  | .nil => []
  | .cons e r => e :: r.toList

def Exprs.ofList : List (Expr E) → Exprs E
  | [] => .nil
  | e :: r => .cons e (Exprs.ofList r)

def Exprs.length : Exprs E → Nat
  | .nil => 0
  | .cons _ r => r.length + 1

/-- The names of constants.go:12-38 in the `switch` of `resolveFunc`, fastMatcher.go:119-205. -/
def fnameTable : List (String × FName) :=
  [("date", .date), ("mathAbs", .abs), ("mathAcos", .un .acos), ("mathAsin", .un .asin), ("mathAtan", .un .atan),
   ("mathAtan2", .bin .atan2), ("mathCeil", .un .ceil), ("mathCos", .un .cos), ("mathDegrees", .un .degrees),
   ("mathExp", .un .exp), ("mathFloor", .un .floor), ("mathLog", .un .log), ("mathLn", .un .ln), ("mathPow", .bin .pow),
   ("mathRadians", .un .radians), ("mathRound", .round), ("mathSin", .un .sin), ("mathSqrt", .un .sqrt), ("mathTan", .un .tan),
   ("mathAdd", .add), ("mathSubract", .sub), ("mathMultiply", .mul), ("mathDivide", .div), ("mathModulo", .mod),
   ("mathNegate", .neg)]

def fnameOf (s : List Nat) : FName :=
  match fnameTable.find? (fun p => ascii p.1 = s) with
  | some p => p.2
  | none => .other

/-! ### Field references, expression_utils.go -/

/-- Adding a field to the collected ones unless it belongs to a loop variable or is already there,
expression_utils.go:23-46 (`fieldExprMatches` is equality of root and path). -/
def addField (f : Field) (loopVars : List Int) (fields : List Field) : List Field :=
  if f.root ∈ loopVars then fields
  else if f ∈ fields then fields
  else fields ++ [f]

mutual
  /-- `fetchExprFieldRefsRecurse`, expression_utils.go:21-110. -/
  def fetch (loopVars : List Int) : Expr E → List Field → Res (List Field)
    | .field f, fields => .ok (addField f loopVars fields)
    | .value _, fields => .ok fields
    | .regex _, fields => .ok fields
    | .pcre _, fields => .ok fields
    | .time _, fields => .ok fields
    | .func _ ps, fields => fetchAll loopVars ps fields
    | .not e, fields => fetch loopVars e fields
    | .and es, fields => fetchAll loopVars es fields
    | .or es, fields => fetchAll loopVars es fields
    | .loop _ v i s, fields => fetch loopVars i fields >>= fun fields => fetch (loopVars ++ [v]) s fields
    | .cmp _ l r, fields => fetch loopVars l fields >>= fun fields => fetch loopVars r fields
    | .exist e, fields => fetch loopVars e fields
    | .notExist _, _ => .panic
    | .tru, _ => .panic
    | .fals, _ => .panic

  def fetchAll (loopVars : List Int) : Exprs E → List Field → Res (List Field)
    | .nil, fields => .ok fields
    | .cons e r, fields => fetch loopVars e fields >>= fun fields => fetchAll loopVars r fields
end

/-- `fetchExprFieldRefs`, expression_utils.go:112-114. -/
def fieldRefs (e : Expr E) : Res (List Field) := fetch [] e []

/-! ### Compaction, expression_compact.go -/

mutual
  /-- `CompactExpression`, expression_compact.go:66-78. -/
  def compact : Expr E → Expr E
    | .or es => compactOr es .nil
    | .and es => compactAnd es .nil
    | .loop .any v i s => match s with
      | .tru => .tru
      | .fals => .fals
      | _ => .loop .any v i s
    | .loop .every v i s => match s with
      | .tru => .tru
      | .fals => .fals
      | _ => .loop .every v i s
    | e => e

  /-- `compactExpressionOr`, expression_compact.go:5-22; the second argument is `newOrExpr`. -/
  def compactOr : Exprs E → Exprs E → Expr E
    | .nil, acc => match acc with
      | .nil => .fals
      | _ => .or acc
    | .cons e r, acc =>
      match compact e with
      | .tru => .tru
      | .fals => compactOr r acc
      | e' => compactOr r (Exprs.ofList (acc.toList ++ [e']))

  /-- `compactExpressionAnd`, expression_compact.go:24-41. -/
  def compactAnd : Exprs E → Exprs E → Expr E
    | .nil, acc => match acc with
      | .nil => .tru
      | _ => .and acc
    | .cons e r, acc =>
      match compact e with
      | .tru => compactAnd r acc
      | .fals => .fals
      | e' => compactAnd r (Exprs.ofList (acc.toList ++ [e']))
end

/-! ### Statistics, expressionstats.go -/

/-- `ExpressionStats`, expressionstats.go:7-15. -/
structure Stats where
  loops : Nat := 0
  nested : Nat := 0
  depth : Nat := 0
  ands : Nat := 0
  ors : Nat := 0
  fields : Nat := 0
  values : Nat := 0
  deriving DecidableEq, Repr

mutual
  /-- `scanOne`, expressionstats.go:30-98. -/
  def scanOne (d : Nat) : Expr E → Stats → Res Stats
    | e, s =>
      let s := if d > s.depth then { s with depth := d } else s
      match e with
      | .field _ => .ok { s with fields := s.fields + 1 }
      | .value _ => .ok { s with values := s.values + 1 }
      | .func _ ps => scanAll d ps s
      | .and es => scanAll d es { s with ands := s.ands + 1 }
      | .or es => scanAll d es { s with ors := s.ors + 1 }
      | .loop _ _ i b =>
        let s := { s with loops := s.loops + 1 }
        let s := if d = 1 then { s with nested := s.nested + 1 } else s
        scanOne d i s >>= fun s => scanOne (d + 1) b s
      | .exist e => scanOne d e s
      | .notExist e => scanOne d e s
      | .cmp .like _ _ => .panic
      | .cmp _ l r => scanOne d l s >>= fun s => scanOne d r s
      | _ => .panic

  def scanAll (d : Nat) : Exprs E → Stats → Res Stats
    | .nil, s => .ok s
    | .cons e r, s => scanOne d e s >>= fun s => scanAll d r s
end

/-- `ExpressionStats.Scan`, expressionstats.go:100-102, on a new `ExpressionStats`. -/
def scan (e : Expr E) : Res Stats := scanOne 0 e {}

end Verif.Expr
