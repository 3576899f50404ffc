import Verif.Filter.Syntax

/-!
# The expression made for a filter

`Filt.expr` is the expression a filter stands for.  `out_build`: `OutputExpression` on the structures of the parser returns it,
or an error exactly for the filters that are not valid; it does not panic.
-/

namespace Verif.Filter
open Verif.FastVal Verif.Expr Verif.Transform

variable {E : Ext}

/-! ### Specification: the expressions -/

def Num.expr : Num E → Expr E
  | .int neg v => .value (.int (if neg then -v else v))
  | .float neg x => .value (.json (.num (if neg then E.neg x else x)))

def Lit.expr : Lit E → Expr E
  | .num n => n.expr
  | .str s => .value (.json (.str s))

/-- Negation if there is a minus sign. -/
def negE (neg : Bool) (e : Expr E) : Expr E := if neg then .func (ascii "mathNegate") (.cons e .nil) else e

def Fld.expr (f : Fld) : Expr E := negE f.neg (.field ⟨0, f.path⟩)

def Arith.name : Arith → String
  | .add => "mathAdd" | .sub => "mathSubract" | .mul => "mathMultiply" | .div => "mathDivide" | .mod => "mathModulo"

def One.name : One → String
  | .abs => "mathAbs" | .acos => "mathAcos" | .asin => "mathAsin" | .atan => "mathAtan" | .ceil => "mathCeil" | .cos => "mathCos"
  | .date => "date" | .degrees => "mathDegrees" | .exp => "mathExp" | .floor => "mathFloor" | .log => "mathLog" | .ln => "mathLn"
  | .sin => "mathSin" | .tan => "mathTan" | .radians => "mathRadians" | .round => "mathRound" | .sqrt => "mathSqrt"

def Two.name : Two → String
  | .atan2 => "mathAtan2" | .pow => "mathPow"

def Term.expr : Term E → Expr E
  | .field f => f.expr
  | .left n o f => .func (ascii o.name) (.cons n.expr (.cons f.expr .nil))
  | .right f o n => .func (ascii o.name) (.cons f.expr (.cons n.expr .nil))
  | .both f o g => .func (ascii o.name) (.cons f.expr (.cons g.expr .nil))

mutual
  def Fn.expr (N : Env E) : Fn E → Expr E
    | .pi neg => negE neg (.value (.json (.num N.pi)))
    | .e neg => negE neg (.value (.json (.num N.e)))
    | .one neg n a => negE neg (.func (ascii n.name) (.cons (Arg.expr N a) .nil))
    | .two neg n a b => negE neg (.func (ascii n.name) (.cons (Arg.expr N a) (.cons (Arg.expr N b) .nil)))
  def Arg.expr (N : Env E) : Arg E → Expr E
    | .fn f => Fn.expr N f
    | .term t => t.expr
    | .lit l => l.expr
end

def Side.expr (N : Env E) : Side E → Expr E
  | .fn f => f.expr N
  | .bool b _ => .value (.json (.bool b))
  | .term t => t.expr
  | .lit l => l.expr

def patExpr (N : Env E) (l : Lit E) : Expr E :=
  if isPcre (l.text N) then .pcre (.json (.str (l.text N))) else .regex (.json (.str (l.text N)))

/-- Conditions that are not valid have no expression; the value here does not matter. -/
def Cond.expr (N : Env E) : Cond E → Expr E
  | .not c => .not (Cond.expr N c)
  | .bool b _ => if b then .tru else .fals
  | .regex a l => .cmp .like (a.expr N) (patExpr N l)
  | .regexFn _ _ => .fals
  | .exist f => .exist f.expr
  | .null s neg => if neg then .not (.cmp .eq (s.expr N) (.value (.json .null))) else .cmp .eq (s.expr N) (.value (.json .null))
  | .missing s neg => if neg then .exist (s.expr N) else .notExist (s.expr N)
  | .cmp l c0 c1 r => match cmpOf c0 c1 with
    | some c => .cmp c (l.expr N) (r.expr N)
    | none => .fals

mutual
  def Filt.exprs (N : Env E) : Filt E → Exprs E
    | .one c => .cons (.and (Conj.exprs N c)) .nil
    | .or c r => .cons (.and (Conj.exprs N c)) (Filt.exprs N r)
  def Conj.exprs (N : Env E) : Conj E → Exprs E
    | .one i => .cons (Item.expr N i) .nil
    | .and i r => .cons (Item.expr N i) (Conj.exprs N r)
  def Item.expr (N : Env E) : Item E → Expr E
    | .paren f => .or (Filt.exprs N f)
    | .cond c => c.expr N
end

/-- An `OR` of `AND`s, even for a single condition. -/
def Filt.expr (N : Env E) (f : Filt E) : Expr E := .or (f.exprs N)

/-- The expression, or an error. -/
def when {α : Type} (b : Bool) (a : α) : Option α := if b then some a else none

/-! ### Proofs -/

@[simp] theorem andThen_some {α β : Type} (a : α) (f : α → Res (Option β)) : andThen (.ok (some a)) f = f a := rfl
@[simp] theorem andThen_none {α β : Type} (f : α → Res (Option β)) : andThen (.ok none) f = .ok none := rfl

theorem Num.out_build (n : Num E) : n.build.out = .ok (some n.expr) := by
  cases n with
  | int neg v => cases neg <;> rfl
  | float neg x => cases neg <;> rfl

theorem Num.string_build (N : Env E) (n : Num E) : n.build.string N = (Lit.num n).text N := by
  cases n with
  | int neg v => cases neg <;> rfl
  | float neg x => cases neg <;> rfl

theorem Lit.out_build (l : Lit E) : l.build.out = .ok (some l.expr) := by
  cases l with
  | num n => exact n.out_build
  | str s => rfl

theorem Lit.string_build (N : Env E) (l : Lit E) : l.build.string N = l.text N := by
  cases l with
  | num n => exact n.string_build N
  | str s => rfl

theorem Seg.out_build (s : Seg) : s.build.out = .ok (s.name.key, s.idx.map fun i => 91 :: (i ++ [93])) := by
  have h : (s.idx.map FEArrayIndex.mk).map FEArrayIndex.string = s.idx.map fun i => 91 :: (i ++ [93]) := by
    rw [List.map_map]; rfl
  obtain ⟨n, idx⟩ := s
  cases n with
  | doc => simp only [Seg.build, FEOnePath.out, h]; rfl
  | ident t => cases t <;> simp [Seg.build, FEOnePath.out, h, FEStringType.string, SegName.key]
  | raw t => cases t <;> simp [Seg.build, FEOnePath.out, h, FEStringType.string, SegName.key]
  | char t => cases t <;> simp [Seg.build, FEOnePath.out, h, FEStringType.string, SegName.key]

theorem outPath_build : ∀ l : List Seg, outPath (l.map Seg.build) =
    .ok (l.flatMap fun s => s.name.key :: s.idx.map fun i => 91 :: (i ++ [93]))
  | [] => rfl
  | s :: l => by simp [outPath, Seg.out_build, outPath_build l]

theorem Fld.out_build (f : Fld) : f.build.out = .ok (some (f.expr : Expr E)) := by
  obtain ⟨neg, segs⟩ := f
  rw [Fld.build, FEField.out, outPath_build, Res.bind_ok]
  cases neg <;> rfl

theorem Seg.string_build (s : Seg) : s.build.stringPanics = false := by
  obtain ⟨n, idx⟩ := s
  cases n <;> rfl

theorem Fld.string_build (f : Fld) : f.build.stringPanics = false := by
  rw [FEField.stringPanics, Fld.build]
  simp [Seg.string_build]

theorem Term.string_build (t : Term E) : t.build.stringPanics = false := by
  cases t <;> simp [Term.build, FEFieldWithMath.stringPanics, FEType1.stringPanics, FEType0.stringPanics, Fld.string_build]

theorem Arith.out_build (o : Arith) : o.build.out = some o.name := by cases o <;> rfl
theorem One.out_build (o : One) : o.build.out = some o.name := by cases o <;> rfl
theorem Two.out_build (o : Two) : o.build.out = some o.name := by cases o <;> rfl

theorem Term.out_build (t : Term E) : t.build.out = .ok (some t.expr) := by
  cases t with
  | field f => simp [Term.build, FEFieldWithMath.out, FEType1.out, Fld.out_build, Term.expr]
  | left n o f =>
    simp [Term.build, FEFieldWithMath.out, FEType0.out, Fld.out_build, Term.expr, Arith.out_build, Num.out_build, call, Exprs.ofList]
  | right f o n =>
    simp [Term.build, FEFieldWithMath.out, FEType1.out, Fld.out_build, Term.expr, Arith.out_build, Num.out_build, call, Exprs.ofList]
  | both f o g =>
    simp [Term.build, FEFieldWithMath.out, FEType1.out, Fld.out_build, Term.expr, Arith.out_build, call, Exprs.ofList]

theorem Arg.build_some (a : Arg E) : ∃ s f v, a.build = .some s f v := by cases a <;> exact ⟨_, _, _, rfl⟩
theorem Fn.build_some (f : Fn E) : ∃ a b c d, f.build = .some a b c d := by cases f <;> exact ⟨_, _, _, _, rfl⟩

theorem badDate_build (N : Env E) (n : One) (a : Arg E) : badDate N n.build a.build = !dateOk N n a := by
  cases a with
  | fn f => cases n <;> rfl
  | term t => cases n <;> rfl
  | lit l => cases n <;> simp [badDate, Arg.build, One.build, Lit.string_build, dateOk]

theorem flag_true (neg : Bool) : (flag neg = some true) ↔ neg = true := by cases neg <;> simp [flag]

mutual
  theorem Fn.out_build (N : Env E) : ∀ f : Fn E, f.build.out N = .ok (when (f.valid N) (f.expr N))
    | .pi neg => by cases neg <;> rfl
    | .e neg => by cases neg <;> rfl
    | .one neg n a => by
      obtain ⟨s, fl, v, ha⟩ := a.build_some
      have h := Arg.out_build N a
      have hd := badDate_build N n a
      rw [ha] at h hd
      rw [Fn.build, OFunc.out, ha]
      simp only [OOne.out, One.out_build, h, hd]
      rw [Fn.valid, Fn.expr]
      cases Arg.valid N a
      · simp [when]
      · cases dateOk N n a
        · simp [when]
        · simp only [when, if_true, andThen_some, Bool.true_and, Bool.not_true, flag_true]
          cases neg <;> rfl
    | .two neg n a b => by
      obtain ⟨s, fl, v, ha⟩ := a.build_some
      obtain ⟨s', fl', v', hb⟩ := b.build_some
      have h := Arg.out_build N a
      have h' := Arg.out_build N b
      rw [ha] at h; rw [hb] at h'
      rw [Fn.build, OFunc.out, ha, hb]
      simp only [OTwo.out, Two.out_build, h, h']
      rw [Fn.valid, Fn.expr]
      cases Arg.valid N a
      · simp [when]
      · cases Arg.valid N b
        · simp [when]
        · simp only [when, if_true, andThen_some, Bool.true_and, flag_true]
          cases neg <;> rfl
  theorem Arg.out_build (N : Env E) : ∀ a : Arg E, a.build.out N = .ok (when (a.valid N) (a.expr N))
    | .fn f => by
      obtain ⟨a, b, c, d, hf⟩ := f.build_some
      have h := Fn.out_build N f
      rw [hf] at h
      rw [Arg.build, hf, OArg.out, h, Arg.valid, Arg.expr]
    | .term t => by rw [Arg.build, OArg.out, t.out_build, Arg.valid, Arg.expr]; rfl
    | .lit l => by rw [Arg.build, OArg.out, l.out_build, Arg.valid, Arg.expr]; rfl
end

mutual
  theorem Fn.string_build : ∀ f : Fn E, f.build.stringPanics = false
    | .pi neg => by rw [Fn.build, OFunc.stringPanics]
    | .e neg => by rw [Fn.build, OFunc.stringPanics]
    | .one neg n a => by
      obtain ⟨s, fl, v, ha⟩ := a.build_some
      have h := Arg.string_build a
      rw [ha] at h
      rw [Fn.build, ha, OFunc.stringPanics, OOne.stringPanics, h]
      simp
    | .two neg n a b => by
      obtain ⟨s, fl, v, ha⟩ := a.build_some
      obtain ⟨s', fl', v', hb⟩ := b.build_some
      have h := Arg.string_build a
      have h' := Arg.string_build b
      rw [ha] at h; rw [hb] at h'
      rw [Fn.build, ha, hb, OFunc.stringPanics, OTwo.stringPanics, h, h']
      · rfl
      · simp
      · simp
  theorem Arg.string_build : ∀ a : Arg E, a.build.stringPanics = false
    | .fn f => by
      obtain ⟨a, b, c, d, hf⟩ := f.build_some
      have h := Fn.string_build f
      rw [hf] at h
      rw [Arg.build, hf, OArg.stringPanics, h]
    | .term t => by rw [Arg.build, OArg.stringPanics, t.string_build]
    | .lit l => by rw [Arg.build, OArg.stringPanics]
end

theorem bool_out (b u v : Bool) : (boolBuild b u).out v =
    .ok (some (if v then .value (.json (.bool b)) else if b then Expr.tru else Expr.fals : Expr E)) := by
  cases b <;> cases u <;> cases v <;> rfl

theorem Side.out_build (N : Env E) (s : Side E) : s.build.out N = .ok (when (s.valid N) (s.expr N)) := by
  cases s with
  | fn f =>
    obtain ⟨a, b, c, d, hf⟩ := f.build_some
    have h := f.out_build N
    rw [hf] at h
    simp only [Side.build, FESide.out, hf, h, Side.valid, Side.expr]
  | bool b u => simp [Side.build, FESide.out, bool_out, Side.valid, Side.expr, when]
  | term t => simp [Side.build, FESide.out, t.out_build, Side.valid, Side.expr, when]
  | lit l => simp [Side.build, FESide.out, l.out_build, Side.valid, Side.expr, when]

/-- The comparison operators: the two-character tests of lines 862-896 are the table. -/
theorem Ch.out_build (c0 : Ch) (c1 : Option Ch) : FECompareOp.out ⟨some c0.build, c1.map Ch.build⟩ = cmpOf c0 c1 := by
  cases c0 <;> rcases c1 with _ | c1 <;> try cases c1
  all_goals rfl

theorem Cond.build_some (c : Cond E) : ∃ x o, c.build = .some x o := by cases c <;> exact ⟨_, _, rfl⟩

theorem Cond.out_build (N : Env E) : ∀ c : Cond E, c.build.out N = .ok (when (c.valid N) (c.expr N))
  | .not c => by
    obtain ⟨x, o, hc⟩ := c.build_some
    have h := Cond.out_build N c
    rw [hc] at h
    rw [Cond.build, hc, OCond.out, h, Cond.valid, Cond.expr]
    cases Cond.valid N c <;> rfl
  | .bool b u => by
    rw [Cond.build, OCond.out, FEOperand.out]
    simp [FEBooleanExpr.out, bool_out, Cond.valid, Cond.expr, when]
  | .regex a l => by
    obtain ⟨s, fl, v, ha⟩ := a.build_some
    have h := a.out_build N
    rw [ha] at h
    rw [Cond.build, OCond.out, FEOperand.out]
    simp only [FEBooleanExpr.out, FEBoolFunc.out, FEBoolTwoArgs.out, if_true, ha, h, FEArgRHS.outRegex, Lit.string_build, Cond.valid,
      Cond.expr, patExpr, makePcre]
    cases Arg.valid N a <;> cases isPcre (l.text N) <;> cases N.pcre <;> simp [when]
  | .regexFn a f => by
    obtain ⟨s, fl, v, ha⟩ := a.build_some
    have h := a.out_build N
    rw [ha] at h
    rw [Cond.build, OCond.out, FEOperand.out]
    simp only [FEBooleanExpr.out, FEBoolFunc.out, FEBoolTwoArgs.out, if_true, ha, h, FEArgRHS.outRegex, Fn.string_build, Cond.valid]
    cases Arg.valid N a <;> simp [when]
  | .exist f => by
    rw [Cond.build, OCond.out, FEOperand.out]
    simp [FEBooleanExpr.out, FEBoolFunc.out, FEExists.out, Fld.out_build, Cond.valid, Cond.expr, when]
  | .null s neg => by
    rw [Cond.build, OCond.out, FEOperand.out]
    simp only [Side.out_build, Cond.valid, Cond.expr]
    cases Side.valid N s <;> cases neg <;> simp [when, FECheckOp.out, flag]
  | .missing s neg => by
    rw [Cond.build, OCond.out, FEOperand.out]
    simp only [Side.out_build, Cond.valid, Cond.expr]
    cases Side.valid N s <;> cases neg <;> simp [when, FECheckOp.out, flag]
  | .cmp l c0 c1 r => by
    rw [Cond.build, OCond.out, FEOperand.out]
    simp only [Side.out_build, Cond.valid, Cond.expr, Ch.out_build]
    cases Side.valid N l <;> cases Side.valid N r <;> cases cmpOf c0 c1 <;> simp [when]

mutual
  theorem Filt.out_buildL (N : Env E) : ∀ f : Filt E, LAnd.out N f.buildL = .ok (when (f.valid N) (f.exprs N))
    | .one c => by
      rw [Filt.buildL]
      obtain ⟨a, b, r, hc⟩ := Conj.build_cons c
      have h := Conj.out_build N c
      rw [hc] at h ⊢
      rw [LAnd.out, h, LAnd.out, Filt.valid, Filt.exprs]
      cases Conj.valid N c <;> rfl
    | .or c f => by
      rw [Filt.buildL]
      obtain ⟨a, b, r, hc⟩ := Conj.build_cons c
      have h := Conj.out_build N c
      rw [hc] at h ⊢
      rw [LAnd.out, h, Filt.out_buildL N f, Filt.valid, Filt.exprs]
      cases Conj.valid N c <;> cases Filt.valid N f <;> rfl
  theorem Conj.build_cons : ∀ c : Conj E, ∃ a b r, c.build = .cons a b r
    | .one (.paren f) => ⟨_, _, _, by rw [Conj.build]⟩
    | .one (.cond c) => ⟨_, _, _, by rw [Conj.build]⟩
    | .and (.paren f) r => ⟨_, _, _, by rw [Conj.build]⟩
    | .and (.cond c) r => ⟨_, _, _, by rw [Conj.build]⟩
  theorem Conj.out_build (N : Env E) : ∀ c : Conj E, LTerm.out N c.build = .ok (when (c.valid N) (c.exprs N))
    | .one (.paren f) => by
      have h := Filt.inner_build N f
      rw [Conj.build, LTerm.out]
      simp only [LTerm.out, h, Conj.valid, Conj.exprs, Item.valid, Item.expr]
      cases Filt.valid N f <;> rfl
    | .one (.cond c) => by
      obtain ⟨x, o, hc⟩ := c.build_some
      have h := c.out_build N
      rw [hc] at h
      rw [Conj.build, hc, LTerm.out]
      simp only [LTerm.out, h, Conj.valid, Conj.exprs, Item.valid, Item.expr]
      cases Cond.valid N c <;> rfl
    | .and (.paren f) r => by
      have h := Filt.inner_build N f
      rw [Conj.build, LTerm.out, Conj.out_build N r]
      simp only [h, Conj.valid, Conj.exprs, Item.valid, Item.expr]
      cases Filt.valid N f <;> cases Conj.valid N r <;> rfl
    | .and (.cond c) r => by
      obtain ⟨x, o, hc⟩ := c.build_some
      have h := c.out_build N
      rw [hc] at h
      rw [Conj.build, hc, LTerm.out, Conj.out_build N r]
      simp only [h, Conj.valid, Conj.exprs, Item.valid, Item.expr]
      cases Cond.valid N c <;> cases Conj.valid N r <;> rfl
  theorem Filt.inner_build (N : Env E) : ∀ f : Filt E, OInner.out N (.some f.buildL) = .ok (when (f.valid N) (.or (f.exprs N)))
    | .one c => by
      have h := Filt.out_buildL N (.one c)
      rw [Filt.buildL] at h ⊢
      rw [OInner.out, h]
      cases Filt.valid N (.one c) <;> rfl
    | .or c f => by
      have h := Filt.out_buildL N (.or c f)
      rw [Filt.buildL] at h ⊢
      rw [OInner.out, h]
      cases Filt.valid N (.or c f) <;> rfl
end

/-- Every filter of the language gives its expression, or an error if it is not valid; there is no panic. -/
theorem out_build (N : Env E) (f : Filt E) : f.build.out N = .ok (when (f.valid N) (f.expr N)) := by
  rw [Filt.build, FilterExpression.out]
  exact f.inner_build N

end Verif.Filter
