import Verif.Filter.Model
import Verif.Transform.Theorems

/-!
# Specification: the filter language

The language described by the grammar of filterExprParser.go:14-50, as plain syntax without pointers, its meaning on a
document, and the structures that the parser fills in for it (`build`).
-/

namespace Verif.Filter
open Verif.FastVal Verif.Expr Verif.Transform
open Verif.Match (valOf)
open Verif.Token (D)

variable {E : Ext}

/-! ### Syntax -/

/-- A number: any number of minus signs count as one. -/
inductive Num (E : Ext) where
  | int (neg : Bool) (v : BitVec 64)
  | float (neg : Bool) (x : E.F)

/-- A number or a quoted text. -/
inductive Lit (E : Ext) where
  | num (n : Num E)
  | str (s : List Nat)

inductive SegName where
  | ident (s : List Nat)
  | raw (s : List Nat)
  | char (s : List Nat)
  | doc

/-- One part of a path with its array indexes. -/
structure Seg where
  name : SegName
  idx : List (List Nat)

structure Fld where
  neg : Bool
  segs : List Seg

inductive Arith where
  | add | sub | mul | div | mod
  deriving DecidableEq

/-- A field, possibly combined with a number or another field. -/
inductive Term (E : Ext) where
  | field (f : Fld)
  | left (n : Num E) (o : Arith) (f : Fld)
  | right (f : Fld) (o : Arith) (n : Num E)
  | both (f : Fld) (o : Arith) (g : Fld)

inductive One where
  | abs | acos | asin | atan | ceil | cos | date | degrees | exp | floor | log | ln | sin | tan | radians | round | sqrt
  deriving DecidableEq

inductive Two where
  | atan2 | pow
  deriving DecidableEq

mutual
  inductive Fn (E : Ext) where
    | pi (neg : Bool)
    | e (neg : Bool)
    | one (neg : Bool) (n : One) (a : Arg E)
    | two (neg : Bool) (n : Two) (a b : Arg E)

  inductive Arg (E : Ext) where
    | fn (f : Fn E)
    | term (t : Term E)
    | lit (l : Lit E)
end

/-- One side of a comparison; Boolean constants are in capitals or not. -/
inductive Side (E : Ext) where
  | fn (f : Fn E)
  | bool (b upper : Bool)
  | term (t : Term E)
  | lit (l : Lit E)

inductive Ch where
  | bang | eq | lt | gt
  deriving DecidableEq

inductive Cond (E : Ext) where
  | not (c : Cond E)
  | bool (b upper : Bool)
  | regex (a : Arg E) (pattern : Lit E)
  | regexFn (a : Arg E) (f : Fn E)
  | exist (f : Fld)
  | null (s : Side E) (neg : Bool)
  | missing (s : Side E) (neg : Bool)
  | cmp (l : Side E) (c0 : Ch) (c1 : Option Ch) (r : Side E)

mutual
  /-- Alternatives joined by `OR`. -/
  inductive Filt (E : Ext) where
    | one (c : Conj E)
    | or (c : Conj E) (rest : Filt E)

  /-- Items joined by `AND`. -/
  inductive Conj (E : Ext) where
    | one (i : Item E)
    | and (i : Item E) (rest : Conj E)

  inductive Item (E : Ext) where
    | paren (f : Filt E)
    | cond (c : Cond E)
end

/-! ### Meaning -/

/-- The function that an operator or a name stands for. -/
def Arith.fn : Arith → FName
  | .add => .add | .sub => .sub | .mul => .mul | .div => .div | .mod => .mod

def One.fn : One → FName
  | .abs => .abs | .acos => .un .acos | .asin => .un .asin | .atan => .un .atan | .ceil => .un .ceil | .cos => .un .cos
  | .date => .date | .degrees => .un .degrees | .exp => .un .exp | .floor => .un .floor | .log => .un .log | .ln => .un .ln
  | .sin => .un .sin | .tan => .un .tan | .radians => .un .radians | .round => .round | .sqrt => .un .sqrt

def Two.fn : Two → FName
  | .atan2 => .bin .atan2 | .pow => .bin .pow

/-- The number as a constant of the expression. -/
def Num.data : Num E → Data E
  | .int neg v => .int (if neg then -v else v)
  | .float neg x => .float (if neg then E.neg x else x)

def Lit.val : Lit E → FV E
  | .num n => ⟨n.data, true⟩
  | .str s => ⟨(Data.str s).toJsonString.1, true⟩

def SegName.key : SegName → List Nat
  | .ident s | .raw s | .char s => s
  | .doc => ascii "META()"

/-- The path of a field; an array index is a part of its own, in brackets. -/
def Fld.path (f : Fld) : Path := f.segs.flatMap fun s => s.name.key :: s.idx.map fun i => 91 :: (i ++ [93])

/-- Negation if there is a minus sign. -/
def negIf (X : Fns E) (neg : Bool) (v : FV E) : Res (FV E) := if neg then applyFn X .neg [v] else .ok v

/-- The value of a term when the field it mentions has the value `x`. -/
def Term.val (X : Fns E) (x : FV E) : Term E → Res (FV E)
  | .field f => negIf X f.neg x
  | .left n o f => negIf X f.neg x >>= fun b => applyFn X o.fn [⟨n.data, true⟩, b]
  | .right f o n => negIf X f.neg x >>= fun a => applyFn X o.fn [a, ⟨n.data, true⟩]
  | .both f o g => negIf X f.neg x >>= fun a => negIf X g.neg x >>= fun b => applyFn X o.fn [a, b]

mutual
  def Fn.val (N : Env E) (X : Fns E) (x : FV E) : Fn E → Res (FV E)
    | .pi neg => negIf X neg ⟨.float N.pi, true⟩
    | .e neg => negIf X neg ⟨.float N.e, true⟩
    | .one neg n a => Arg.val N X x a >>= fun v => applyFn X n.fn [v] >>= negIf X neg
    | .two neg n a b => Arg.val N X x a >>= fun v => Arg.val N X x b >>= fun w => applyFn X n.fn [v, w] >>= negIf X neg
  def Arg.val (N : Env E) (X : Fns E) (x : FV E) : Arg E → Res (FV E)
    | .fn f => Fn.val N X x f
    | .term t => t.val X x
    | .lit l => .ok l.val
end

def Side.val (N : Env E) (X : Fns E) (x : FV E) : Side E → Res (FV E)
  | .fn f => f.val N X x
  | .bool b _ => .ok ⟨if b then .tru else .fals, true⟩
  | .term t => t.val X x
  | .lit l => .ok l.val

/-- The fields that are mentioned. -/
def Term.fields : Term E → List Path
  | .field f => [f.path]
  | .left _ _ f => [f.path]
  | .right f _ _ => [f.path]
  | .both f _ g => [f.path, g.path]

mutual
  def Fn.fields : Fn E → List Path
    | .pi _ | .e _ => []
    | .one _ _ a => Arg.fields a
    | .two _ _ a b => Arg.fields a ++ Arg.fields b
  def Arg.fields : Arg E → List Path
    | .fn f => Fn.fields f
    | .term t => t.fields
    | .lit _ => []
end

def Side.fields : Side E → List Path
  | .fn f => f.fields
  | .bool _ _ => []
  | .term t => t.fields
  | .lit _ => []

/-- Fields of a condition (below negations). -/
def Cond.fields : Cond E → List Path
  | .not c => c.fields
  | .bool _ _ => []
  | .regex a _ => a.fields
  | .regexFn a f => a.fields ++ f.fields
  | .exist f => [f.path]
  | .null s _ => s.fields
  | .missing s _ => s.fields
  | .cmp l _ _ r => l.fields ++ r.fields

/-- The table of comparison operators. -/
def cmpOf : Ch → Option Ch → Option Cmp
  | .eq, none | .eq, some .eq => some .eq
  | .bang, some .eq | .lt, some .gt => some .ne
  | .gt, none => some .gt
  | .gt, some .eq => some .ge
  | .lt, none => some .lt
  | .lt, some .eq => some .le
  | _, _ => none

/-- The text used as a pattern. -/
def Lit.text (N : Env E) : Lit E → List Nat
  | .str s => s
  | .num (.int neg v) => fmtInt (if neg then -v else v)
  | .num (.float neg x) => N.fmtV (if neg then E.neg x else x)

/-- The value of a pattern. -/
def patVal (N : Env E) (C : Comp E) (l : Lit E) : Option (FV E) :=
  if isPcre (l.text N) then (C.pcre (l.text N)).map fun r => ⟨.pcre r, true⟩ else (C.regexp (l.text N)).map fun r => ⟨.regex r, true⟩

/-- The first value of the field in the document, if there is one. -/
def readField (ps : List Path) (d : D) : Option D := (walk (ps.head?.getD []) d).head?

/-- A comparison of two values, neither of whose computation crashed. -/
def holdsB (c : Cmp) (l r : Res (FV E)) : Bool :=
  match l, r with
  | .ok a, .ok b => cmpHolds c a b
  | _, _ => false

/-- Whether a test on the value of the field holds; `dflt` if there is no such field. -/
def onField (ps : List Path) (d : D) (dflt : Bool) (test : FV E → Bool) : Bool :=
  match readField ps d with
  | none => dflt
  | some x => match valOf x with
    | .ok v => test v
    | _ => false

/-- A condition on a missing field is false, except that `!=` and `<>` hold and `IS NOT NULL` holds.  `k` is the meaning of the
constants; it should be the identity. -/
def Cond.truth (N : Env E) (X : Fns E) (C : Comp E) (k : Bool → Bool) (d : D) : Cond E → Bool
  | .not c => !Cond.truth N X C k d c
  | .bool b _ => k b
  | .regex a l => onField a.fields d false fun v => match patVal N C l with
    | some p => holdsB .like (a.val N X v) (.ok p)
    | none => false
  | .regexFn _ _ => false
  | .exist f => (readField [f.path] d).isSome
  | .null s neg => neg ^^ onField s.fields d false fun v => holdsB .eq (s.val N X v) (.ok ⟨.null, true⟩)
  | .missing s neg => !neg ^^ (readField s.fields d).isSome
  | .cmp l c0 c1 r => match cmpOf c0 c1 with
    | some c => onField (l.fields ++ r.fields) d (decide (c = .ne)) fun v => holdsB c (l.val N X v) (r.val N X v)
    | none => false

mutual
  def Filt.truth (N : Env E) (X : Fns E) (C : Comp E) (k : Bool → Bool) (d : D) : Filt E → Bool
    | .one c => Conj.truth N X C k d c
    | .or c r => Conj.truth N X C k d c || Filt.truth N X C k d r
  def Conj.truth (N : Env E) (X : Fns E) (C : Comp E) (k : Bool → Bool) (d : D) : Conj E → Bool
    | .one i => Item.truth N X C k d i
    | .and i r => Item.truth N X C k d i && Conj.truth N X C k d r
  def Item.truth (N : Env E) (X : Fns E) (C : Comp E) (k : Bool → Bool) (d : D) : Item E → Bool
    | .paren f => Filt.truth N X C k d f
    | .cond c => c.truth N X C k d
end

/-! ### Which filters are covered by the theorems about matching -/

/-- Paths of the conditions, one for each. -/
def Cond.path (c : Cond E) : Path := c.fields.head?.getD []

/-- At most one field, possibly several times. -/
def OneField (ps : List Path) : Prop := ∀ q ∈ ps, q = ps.head?.getD []

/-- Divisors are nonzero constants. -/
def Term.Safe : Term E → Prop
  | .field _ => True
  | .left _ o _ => o ≠ .div ∧ o ≠ .mod
  | .right _ o n => o = .div ∨ o = .mod → Match.Divisor (E := E) ⟨n.data, true⟩
  | .both _ o _ => o ≠ .div ∧ o ≠ .mod

mutual
  def Fn.Safe : Fn E → Prop
    | .pi _ | .e _ => True
    | .one _ _ a => Arg.Safe a
    | .two _ _ a b => Arg.Safe a ∧ Arg.Safe b
  def Arg.Safe : Arg E → Prop
    | .fn f => Fn.Safe f
    | .term t => t.Safe
    | .lit _ => True
end

def Side.Safe : Side E → Prop
  | .fn f => f.Safe
  | .term t => t.Safe
  | _ => True

/-- One field, no division by something that could be zero, and the pattern compiles. -/
def Cond.Simple (N : Env E) (C : Comp E) : Cond E → Prop
  | .not c => c.Simple N C
  | .bool _ _ => True
  | .regex a l => OneField a.fields ∧ a.Safe ∧ (patVal N C l).isSome
  | .regexFn _ _ => False
  | .exist _ => True
  | .null s _ => OneField s.fields ∧ s.Safe
  | .missing s _ => OneField s.fields ∧ s.Safe
  | .cmp l _ _ r => OneField (l.fields ++ r.fields) ∧ l.Safe ∧ r.Safe

/-- The conditions of a filter, without the negations around them. -/
def Cond.base : Cond E → Cond E
  | .not c => c.base
  | c => c

mutual
  def Filt.conds : Filt E → List (Cond E)
    | .one c => Conj.conds c
    | .or c r => Conj.conds c ++ Filt.conds r
  def Conj.conds : Conj E → List (Cond E)
    | .one i => Item.conds i
    | .and i r => Item.conds i ++ Conj.conds r
  def Item.conds : Item E → List (Cond E)
    | .paren f => Filt.conds f
    | .cond c => [c]
end

/-- Paths of the conditions other than constants. -/
def Filt.paths (f : Filt E) : List Path := f.conds.filterMap fun c => match c.base with
  | .bool _ _ => none
  | c => some c.path

/-- Constants in a filter. -/
def Filt.consts (f : Filt E) : List Bool := f.conds.filterMap fun c => match c.base with
  | .bool b _ => some b
  | _ => none

/-- The documents on which the matcher sees the values it needs: no condition is about an empty array, nor about an empty object
if another condition is about something inside of it. -/
structure Seen (ps : List Path) (d : D) : Prop where
  arr : ∀ p ∈ ps, ∀ x ∈ walk p d, ¬ EmptyArr x
  obj : ∀ p ∈ ps, ∀ x ∈ walk p d, EmptyObj x → ∀ k q, p ++ k :: q ∉ ps

/-! ### Which filters are accepted -/

/-- A literal given to `DATE` is a date. -/
def dateOk (N : Env E) : One → Arg E → Bool
  | .date, .lit l => N.validTime (l.text N)
  | _, _ => true

mutual
  /-- Literals given to `DATE` are dates. -/
  def Fn.valid (N : Env E) : Fn E → Bool
    | .pi _ | .e _ => true
    | .one _ n a => Arg.valid N a && dateOk N n a
    | .two _ _ a b => Arg.valid N a && Arg.valid N b
  def Arg.valid (N : Env E) : Arg E → Bool
    | .fn f => Fn.valid N f
    | .term _ => true
    | .lit _ => true
end

def Side.valid (N : Env E) : Side E → Bool
  | .fn f => f.valid N
  | _ => true

/-- The operator is in the table; patterns need the PCRE library only if it is there; patterns are not computed. -/
def Cond.valid (N : Env E) : Cond E → Bool
  | .not c => c.valid N
  | .bool _ _ => true
  | .regex a l => a.valid N && (N.pcre || !isPcre (l.text N))
  | .regexFn _ _ => false
  | .exist _ => true
  | .null s _ => s.valid N
  | .missing s _ => s.valid N
  | .cmp l c0 c1 r => l.valid N && r.valid N && (cmpOf c0 c1).isSome

mutual
  def Filt.valid (N : Env E) : Filt E → Bool
    | .one c => Conj.valid N c
    | .or c r => Conj.valid N c && Filt.valid N r
  def Conj.valid (N : Env E) : Conj E → Bool
    | .one i => Item.valid N i
    | .and i r => Item.valid N i && Conj.valid N r
  def Item.valid (N : Env E) : Item E → Bool
    | .paren f => Filt.valid N f
    | .cond c => c.valid N
end

/-! ### The structures filled in by the parser -/

/-- `@"…"` into a `*bool`, or nothing. -/
def flag (b : Bool) : Option Bool := if b then some true else none

def Num.build : Num E → FEMathValue E
  | .int neg v => ⟨flag neg, some v, none⟩
  | .float neg x => ⟨flag neg, none, some x⟩

def Lit.build : Lit E → FEValue E
  | .num n => ⟨some n.build, none⟩
  | .str s => ⟨none, some s⟩

def Seg.build (s : Seg) : FEOnePath :=
  match s.name with
  | .ident t => ⟨none, some ⟨[], [], t⟩, s.idx.map FEArrayIndex.mk⟩
  | .raw t => ⟨none, some ⟨[], t, []⟩, s.idx.map FEArrayIndex.mk⟩
  | .char t => ⟨none, some ⟨t, [], []⟩, s.idx.map FEArrayIndex.mk⟩
  | .doc => ⟨some ⟨some ⟨some ⟨some true⟩⟩⟩, none, s.idx.map FEArrayIndex.mk⟩

def Fld.build (f : Fld) : FEField := ⟨flag f.neg, f.segs.map Seg.build⟩

def Arith.build : Arith → FEMathOp
  | .add => ⟨some true, none, none, none, none⟩
  | .sub => ⟨none, some true, none, none, none⟩
  | .mul => ⟨none, none, some true, none, none⟩
  | .div => ⟨none, none, none, some true, none⟩
  | .mod => ⟨none, none, none, none, some true⟩

def Term.build : Term E → FEFieldWithMath E
  | .field f => ⟨none, some ⟨some f.build, none, none, none⟩, none⟩
  | .left n o f => ⟨some ⟨some n.build, some o.build, some f.build⟩, none, none⟩
  | .right f o n => ⟨none, some ⟨some f.build, some o.build, some n.build, none⟩, none⟩
  | .both f o g => ⟨none, some ⟨some f.build, some o.build, none, some g.build⟩, none⟩

def One.build : One → FEOneArgName
  | .abs => { abs := some true } | .acos => { acos := some true } | .asin => { asin := some true } | .atan => { atan := some true }
  | .ceil => { ceil := some true } | .cos => { cos := some true } | .date => { date := some true } | .degrees => { degrees := some true }
  | .exp => { exp := some true } | .floor => { floor := some true } | .log => { log := some true } | .ln => { ln := some true }
  | .sin => { sine := some true } | .tan => { tangent := some true } | .radians => { radians := some true }
  | .round => { round := some true } | .sqrt => { sqrt := some true }

def Two.build : Two → FETwoArgsName
  | .atan2 => ⟨some true, none⟩
  | .pow => ⟨none, some true⟩

mutual
  def Fn.build : Fn E → OFunc E
    | .pi neg => .some (flag neg) (some (some ⟨some true, none⟩)) .none .none
    | .e neg => .some (flag neg) (some (some ⟨none, some true⟩)) .none .none
    | .one neg n a => .some (flag neg) none (.some (some n.build) (Arg.build a)) .none
    | .two neg n a b => .some (flag neg) none .none (.some (some n.build) (Arg.build a) (Arg.build b))
  def Arg.build : Arg E → OArg E
    | .fn f => .some (Fn.build f) none none
    | .term t => .some .none (some t.build) none
    | .lit l => .some .none none (some l.build)
end

def boolBuild (b upper : Bool) : FEBoolean :=
  ⟨flag (b && upper), flag (b && !upper), flag (!b && upper), flag (!b && !upper)⟩

def Side.build : Side E → FESide E
  | .fn f => ⟨f.build, none, none, none⟩
  | .bool b u => ⟨.none, some (boolBuild b u), none, none⟩
  | .term t => ⟨.none, none, some t.build, none⟩
  | .lit l => ⟨.none, none, none, some l.build⟩

def Ch.build : Ch → FEOpChar
  | .bang => ⟨some true, none, none, none⟩
  | .eq => ⟨none, some true, none, none⟩
  | .lt => ⟨none, none, some true, none⟩
  | .gt => ⟨none, none, none, some true⟩

def Cond.build : Cond E → OCond E
  | .not c => .some (Cond.build c) none
  | .bool b u => .some .none (some ⟨some ⟨some (boolBuild b u), none⟩, none, none, none, none⟩)
  | .regex a l =>
    .some .none (some ⟨some ⟨none, some ⟨some ⟨some ⟨some true⟩, a.build, some ⟨.none, some l.build⟩⟩, none⟩⟩, none, none, none, none⟩)
  | .regexFn a f =>
    .some .none (some ⟨some ⟨none, some ⟨some ⟨some ⟨some true⟩, a.build, some ⟨f.build, none⟩⟩, none⟩⟩, none, none, none, none⟩)
  | .exist f => .some .none (some ⟨some ⟨none, some ⟨none, some ⟨some f.build⟩⟩⟩, none, none, none, none⟩)
  | .null s neg => .some .none (some ⟨none, some s.build, none, none, some ⟨flag neg, some true, none⟩⟩)
  | .missing s neg => .some .none (some ⟨none, some s.build, none, none, some ⟨flag neg, none, some true⟩⟩)
  | .cmp l c0 c1 r => .some .none (some ⟨none, some l.build, some ⟨some c0.build, c1.map Ch.build⟩, some r.build, none⟩)

mutual
  def Filt.buildL : Filt E → LAnd E
    | .one c => .cons (Conj.build c) .nil
    | .or c r => .cons (Conj.build c) (Filt.buildL r)
  def Conj.build : Conj E → LTerm E
    | .one (.paren f) => .cons (.some (Filt.buildL f)) .none .nil
    | .one (.cond c) => .cons .none c.build .nil
    | .and (.paren f) r => .cons (.some (Filt.buildL f)) .none (Conj.build r)
    | .and (.cond c) r => .cons .none c.build (Conj.build r)
end

def Filt.build (f : Filt E) : FilterExpression E := ⟨.some f.buildL⟩

end Verif.Filter
