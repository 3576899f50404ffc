import Verif.Filter.Compiles

/-!
# Incomplete arithmetic

C87, for the pieces of the parser's structure that its grammar never leaves incomplete: what `OutputExpression` does with arithmetic whose field is
missing (filterExprParser.go:520-573).
-/

namespace Verif.Filter
open Verif.FastVal Verif.Expr Verif.Transform

variable {E : Ext}

/-- **C87.**  Arithmetic without its first field is never translated.  It crashes exactly if there is a number and a second field but no operator: the
error message prints the operator, a nil pointer. -/
theorem C87_arithmetic (f : FEType1 E) (h : f.field = none) :
    (f.out = .panic ↔ f.value ≠ none ∧ f.op = none ∧ f.other ≠ none) ∧ (f.out ≠ .panic → f.out = .ok none) := by
  obtain ⟨fl, op, v, g⟩ := f
  simp only at h
  subst h
  cases op <;> cases v <;> cases g <;> simp [FEType1.out, FEType1.stringPanics]

/-- A number alone is an error, not a crash; with a second field it is a crash. -/
example (v : FEMathValue E) (g : FEField) : (FEType1.mk none none (some v) none).out = .ok none ∧ (FEType1.mk none none (some v) (some g)).out = .panic :=
  ⟨(C87_arithmetic _ rfl).2 (fun h => ((C87_arithmetic _ rfl).1.1 h).2.2 rfl), (C87_arithmetic _ rfl).1.2 (by simp)⟩

end Verif.Filter
