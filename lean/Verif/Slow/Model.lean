import Verif.Expr.Model

/-!
# Model of slowmatcher.go

The reference matcher works on the values `encoding/json` decodes (`Expr.J`).  `json.Unmarshal` itself is a parameter.

A result `none` is a Go error.  The order in which Go iterates over a map is not specified; here it is the order of the
list of bindings.
-/

namespace Verif.Slow
open Verif.FastVal Verif.Expr
open Verif.Match (Mode)

variable {E : Ext}

/-- `vars`, slowmatcher.go:14: a map from variables to decoded values. -/
abbrev Vars (E : Ext) := Int → Option (J E)

/-- `m.vars[v] = val` -/
def Vars.set (s : Vars E) (v : Int) (j : J E) : Vars E := fun u => if u = v then some j else s u

/-- `delete(m.vars, v)` -/
def Vars.erase (s : Vars E) (v : Int) : Vars E := fun u => if u = v then none else s u

/-- `mapVal[field]`; nil if there is no such key. -/
def lookup (k : List Nat) : Jms E → J E
  | .nil => .null
  | .cons k' v r => if k' = k then v else lookup k r

/-- The loop of `resolveFieldParam`, slowmatcher.go:27-36. -/
def follow : List (List Nat) → J E → Option (J E)
  | [], j => some j
  | k :: p, .obj ms => follow p (lookup k ms)
  | _ :: _, _ => none

/-- `resolveFieldParam`, slowmatcher.go:24-37; reading an unset variable gives nil. -/
def resolveField (s : Vars E) (f : Field) : Option (J E) := follow f.path ((s f.root).getD .null)

/-- `resolveParam`, slowmatcher.go:39-48. -/
def resolveParam (s : Vars E) : Expr E → Res (Option (GoVal E))
  | .field f => .ok ((resolveField s f).map .json)
  | .value v => .ok (some v)
  | _ => .panic

/-- The type switch of `compareExprs`, slowmatcher.go:95-131. -/
def compareVals : GoVal E → GoVal E → Option Int
  | .json (.str s), .json (.str t) => some (cmpBytes s t)
  | .json (.num x), .json (.num y) => some (if E.lt x y then -1 else if E.lt y x then 1 else 0)
  | .json (.bool x), .json (.bool y) => some (if x = true ∧ y = false then 1 else if x = false ∧ y = true then -1 else 0)
  | .json .null, .json .null => some 0
  | .json .null, _ => some (-1)
  | _, _ => none

/-- `compareExprs`, slowmatcher.go:84-132. -/
def compareExprs (s : Vars E) (l r : Expr E) : Res (Option Int) :=
  resolveParam s l >>= fun a =>
  match a with
  | none => .ok none
  | some a =>
    resolveParam s r >>= fun b =>
    match b with
    | none => .ok none
    | some b => .ok (compareVals a b)

/-- The tests of `matchEqualsExpr` … `matchGreaterEqualsExpr`, slowmatcher.go:178-230; `LikeExpr` is not supported
(`matchOne` panics). -/
def test : Cmp → Int → Res Bool
  | .eq, x => .ok (decide (x = 0))
  | .ne, x => .ok (decide (x ≠ 0))
  | .lt, x => .ok (decide (x < 0))
  | .le, x => .ok (decide (x ≤ 0))
  | .gt, x => .ok (decide (x > 0))
  | .ge, x => .ok (decide (x ≥ 0))
  | .like, _ => .panic

/-- What a method of the matcher returns: `(bool, error)` and the variables. -/
abbrev Out (E : Ext) := Res (Option Bool × Vars E)

/-- A comparison, slowmatcher.go:178-230. -/
def matchCmp (c : Cmp) (l r : Expr E) (s : Vars E) : Out E :=
  if c = .like then .panic
  else
    compareExprs s l r >>= fun x =>
    match x with
    | none => .ok (none, s)
    | some x => test c x >>= fun b => .ok (some b, s)

/-- The elements of an array. -/
def elems : Js E → List (J E)
  | .nil => []
  | .cons v r => v :: elems r

/-- The values of a map. -/
def values : Jms E → List (J E)
  | .nil => []
  | .cons _ v r => v :: values r

/-- The loops of `matchAnyInExpr`, slowmatcher.go:142-156 and 158-172. -/
def anyIn (body : Vars E → Out E) (v : Int) : List (J E) → Vars E → Out E
  | [], s => .ok (some false, s)
  | x :: xs, s =>
    body (s.set v x) >>= fun o =>
    match o.1 with
    | none => .ok (none, o.2.erase v)
    | some true => .ok (some true, o.2.erase v)
    | some false => anyIn body v xs (o.2.erase v)

/-- `matchAnyInExpr`, slowmatcher.go:134-176. -/
def matchAnyIn (body : Vars E → Out E) (v : Int) (i : Expr E) (s : Vars E) : Out E :=
  resolveParam s i >>= fun x =>
  match x with
  | none => .ok (none, s)
  | some (.json (.obj ms)) => anyIn body v (values ms) s
  | some (.json (.arr es)) => anyIn body v (elems es) s
  | some _ => .panic

mutual
  /-- `matchOne`, slowmatcher.go:232-255. -/
  def matchOne : Expr E → Vars E → Out E
    | .or es, s => matchOr es s
    | .and es, s => match es with
      | .nil => .ok (some false, s)
      | .cons e r => matchAnd (.cons e r) s
    | .loop .any v i b, s => matchAnyIn (matchOne b) v i s
    | .cmp c l r, s => matchCmp c l r s
    | _, _ => .panic

  /-- `matchOrExpr`, slowmatcher.go:50-63. -/
  def matchOr : Exprs E → Vars E → Out E
    | .nil, s => .ok (some false, s)
    | .cons e r, s =>
      matchOne e s >>= fun o =>
      match o.1 with
      | none => .ok (none, o.2)
      | some true => .ok (some true, o.2)
      | some false => matchOr r o.2

  /-- The loop of `matchAndExpr`, slowmatcher.go:70-81. -/
  def matchAnd : Exprs E → Vars E → Out E
    | .nil, s => .ok (some true, s)
    | .cons e r, s =>
      matchOne e s >>= fun o =>
      match o.1 with
      | none => .ok (none, o.2)
      | some false => .ok (some false, o.2)
      | some true => matchAnd r o.2
end

/-- `matchOneRootExpr`, slowmatcher.go:257-267. -/
def matchRoot : Expr E → Vars E → Out E
  | .tru, s => .ok (some true, s)
  | .fals, s => .ok (some false, s)
  | e, s => matchOne e s

/-- `SlowMatcher`, slowmatcher.go:11-15; a nil map is an empty one. -/
structure M (E : Ext) where
  exprs : List (Expr E)
  matches_ : List Bool
  vars : Vars E

/-- `NewSlowMatcher`, slowmatcher.go:17-22. -/
def newSlow (es : List (Expr E)) : M E := ⟨es, es.map (fun _ => false), fun _ => none⟩

/-- `Reset`, slowmatcher.go:269-276. -/
def reset (m : M E) : M E := { m with vars := fun _ => none, matches_ := m.matches_.map (fun _ => false) }

/-- The loop of `Match`, slowmatcher.go:290-303, from expression `i` on. -/
def matchFrom : Nat → List (Expr E) → Bool → M E → Res (Option Bool × M E)
  | _, [], matched, m => .ok (some matched, m)
  | i, e :: es, matched, m =>
    matchRoot e m.vars >>= fun o =>
    match o.1 with
    | none => .ok (none, { m with vars := o.2 })
    | some res =>
      if i < m.matches_.length then
        matchFrom (i + 1) es (if i = 0 ∧ res = true then true else if res = false then false else matched)
          { m with vars := o.2, matches_ := m.matches_.set i res }
      else .panic

/-- `Match`, slowmatcher.go:278-307, where `unmarshal` is `json.Unmarshal`. -/
def slowMatch (unmarshal : List Nat → Option (J E)) (m : M E) (data : List Nat) : Res (Option Bool × M E) :=
  match unmarshal data with
  | none => .ok (none, m)
  | some j =>
    matchFrom 0 m.exprs false { m with vars := m.vars.set 0 j } >>= fun r =>
    match r.1 with
    | none => .ok r
    | some b => .ok (some b, { r.2 with vars := r.2.vars.erase 0 })

/-- `ExpressionMatched`, slowmatcher.go:315-317. -/
def expressionMatched (m : M E) (i : Nat) : Res Bool := Res.idx m.matches_ i

end Verif.Slow
