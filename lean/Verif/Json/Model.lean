import Verif.Expr.Model

/-!
# Model of expression_json.go

`json.Unmarshal` is a parameter (`parseText`); the functions below start from its result, a slice of `interface{}`.
-/

namespace Verif.Json
open Verif.FastVal Verif.Match Verif.Expr

variable {E : Ext}

/-- One element `data[i]`: the value, and, if it is a `[]interface{}`, what `parseJsonSubexpr` does on it (`none` is an
error).  The code calls `parseJsonSubexpr` only on the elements it needs; here it is evaluated by whoever looks. -/
structure Part (E : Ext) where
  raw : J E
  sub : Option (Res (Option (Expr E)))

/-- Sequencing of functions that return `(_, error)`. -/
def bindE {α β : Type} (x : Res (Option α)) (f : α → Res (Option β)) : Res (Option β) :=
  x >>= fun r => match r with
  | none => .ok none
  | some a => f a

/-- `parseJsonValue`, `parseJsonRegex`, expression_json.go:10-14, 279-283 (`ps` is `data[1:]`). -/
def aValue (mk : GoVal E → Expr E) (ps : List (Part E)) : Res (Option (Expr E)) :=
  Res.idx ps 0 >>= fun p => .ok (some (mk (.json p.raw)))

/-- The loop of `parseJsonField`, expression_json.go:23-29. -/
def pathOf : List (Part E) → Option (List (List Nat))
  | [] => some []
  | p :: ps => match p.raw with
    | .str s => (pathOf ps).map (s :: ·)
    | _ => none

/-- `parseJsonField`, expression_json.go:16-32; `VariableID(f)` is the conversion of a float to an integer. -/
def aField (ps : List (Part E)) : Res (Option (Expr E)) :=
  Res.idx ps 0 >>= fun p =>
  match p.raw with
  | .num f => .ok ((pathOf (ps.drop 1)).map fun path => .field ⟨(E.toInt f).toInt, path⟩)
  | _ => .ok ((pathOf ps).map fun path => .field ⟨0, path⟩)

/-- The loop of `parseJsonFunc`, expression_json.go:41-49: the type assertion is unchecked. -/
def paramsOf : List (Part E) → Res (Option (Exprs E))
  | [] => .ok (some .nil)
  | p :: ps => match p.sub with
    | none => .panic
    | some r => bindE r fun e => bindE (paramsOf ps) fun es => .ok (some (.cons e es))

/-- `parseJsonFunc`, expression_json.go:34-52. -/
def aFunc (ps : List (Part E)) : Res (Option (Expr E)) :=
  Res.idx ps 0 >>= fun p =>
  match p.raw with
  | .str s => bindE (paramsOf (ps.drop 1)) fun es => .ok (some (.func s es))
  | _ => bindE (paramsOf ps) fun es => .ok (some (.func [] es))

/-- `parseJsonExists`, `parseJsonNotExists`, `parseJsonNot`, expression_json.go:54-80, 159-175. -/
def aUnary (mk : Expr E → Expr E) (ps : List (Part E)) : Res (Option (Expr E)) :=
  Res.idx ps 0 >>= fun p =>
  match p.sub with
  | none => .ok none
  | some r => bindE r fun e => .ok (some (mk e))

/-- `parseJsonComparison` and its callers, expression_json.go:82-157, 270-277. -/
def aCmp (c : Cmp) (ps : List (Part E)) : Res (Option (Expr E)) :=
  Res.idx ps 0 >>= fun p =>
  match p.sub with
  | none => .ok none
  | some l =>
    Res.idx ps 1 >>= fun q =>
    match q.sub with
    | none => .ok none
    | some r => bindE l fun l => bindE r fun r => .ok (some (.cmp c l r))

/-- The loops of `parseJsonOr` and `parseJsonAnd`, expression_json.go:177-211. -/
def listOf : List (Part E) → Res (Option (Exprs E))
  | [] => .ok (some .nil)
  | p :: ps => match p.sub with
    | none => .ok none
    | some r => bindE r fun e => bindE (listOf ps) fun es => .ok (some (.cons e es))

/-- `parseJsonLoop` and its callers, expression_json.go:213-268. -/
def aLoop (m : Mode) (ps : List (Part E)) : Res (Option (Expr E)) :=
  Res.idx ps 0 >>= fun v =>
  match v.raw with
  | .num f =>
    Res.idx ps 1 >>= fun p =>
    match p.sub with
    | none => .ok none
    | some i =>
      Res.idx ps 2 >>= fun q =>
      match q.sub with
      | none => .ok none
      | some s => bindE i fun i => bindE s fun s => .ok (some (.loop m (E.toInt f).toInt i s))
  | _ => .ok none

/-- `parseJsonTime`, expression_json.go:285-292; `vt` is `validTimeChecker`. -/
def aTime (vt : List Nat → Bool) (ps : List (Part E)) : Res (Option (Expr E)) :=
  Res.idx ps 0 >>= fun p =>
  match p.raw with
  | .str s => if vt s then .ok (some (.time (.json p.raw))) else .ok none
  | _ => .ok (some (.time (.json p.raw)))

/-- The tags of the `switch` in `parseJsonSubexpr`, expression_json.go:301-342. -/
inductive Tag where
  | value | field | func | not | or | and | anyin | everyin | anyeveryin | exist | notexist
  | equals | notequals | lessthan | lessequals | greaterthan | greaterequals | like | regex | time
  deriving DecidableEq, Repr

def tagTable : List (String × Tag) :=
  [("value", .value), ("field", .field), ("func", .func), ("not", .not), ("or", .or), ("and", .and), ("anyin", .anyin),
   ("everyin", .everyin), ("anyeveryin", .anyeveryin), ("exists", .exist), ("notexists", .notexist), ("equals", .equals),
   ("notequals", .notequals), ("lessthan", .lessthan), ("lessequals", .lessequals), ("greaterthan", .greaterthan),
   ("greaterequals", .greaterequals), ("like", .like), ("regex", .regex), ("time", .time)]

def tagOf (s : List Nat) : Option Tag := (tagTable.find? fun p => ascii p.1 = s).map (·.2)

/-- What each case does with `data[1:]`. -/
def build (vt : List Nat → Bool) (ps : List (Part E)) : Tag → Res (Option (Expr E))
  | .value => aValue .value ps
  | .field => aField ps
  | .func => aFunc ps
  | .not => aUnary .not ps
  | .or => bindE (listOf ps) fun es => .ok (some (.or es))
  | .and => bindE (listOf ps) fun es => .ok (some (.and es))
  | .anyin => aLoop .any ps
  | .everyin => aLoop .every ps
  | .anyeveryin => aLoop .anyEvery ps
  | .exist => aUnary .exist ps
  | .notexist => aUnary .notExist ps
  | .equals => aCmp .eq ps
  | .notequals => aCmp .ne ps
  | .lessthan => aCmp .lt ps
  | .lessequals => aCmp .le ps
  | .greaterthan => aCmp .gt ps
  | .greaterequals => aCmp .ge ps
  | .like => aCmp .like ps
  | .regex => aValue .regex ps
  | .time => aTime vt ps

mutual
  /-- `parseJsonSubexpr`, expression_json.go:294-345; `none` is an error. -/
  def parseSub (vt : List Nat → Bool) : Js E → Res (Option (Expr E))
    | .nil => .panic
    | .cons t rest => match t with
      | .str s => match tagOf s with
        | none => .ok none
        | some tag => build vt (partsOf vt rest) tag
      | _ => .ok none

  def partOf (vt : List Nat → Bool) : J E → Option (Res (Option (Expr E)))
    | .arr d => some (parseSub vt d)
    | _ => none

  def partsOf (vt : List Nat → Bool) : Js E → List (Part E)
    | .nil => []
    | .cons v r => ⟨v, partOf vt v⟩ :: partsOf vt r
end

/-- `ParseJsonExpression`, expression_json.go:347-354, where `unm` is `json.Unmarshal` into a `[]interface{}` (`none` is an
error; the text `null` gives the empty slice). -/
def parseText (vt : List Nat → Bool) (unm : List Nat → Option (Js E)) (data : List Nat) : Res (Option (Expr E)) :=
  match unm data with
  | none => .ok none
  | some d => parseSub vt d

end Verif.Json
