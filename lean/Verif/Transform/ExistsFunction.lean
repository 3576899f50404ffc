import Verif.Transform.ElementMembers
/-!
Existence tests on functions of several fields (transform.go:403-441, fastMatcher.go:227-309): the operation runs after the object that holds the
fields, with no literal, and is true whatever the fields are.
-/
namespace Verif.Transform
open Verif.FastVal Verif.Match Verif.Expr
open Verif.Token (D Es Ms Tok)

variable {E : Ext}

/-- Without a reference and without a literal a side has no value, and that is not a field that was not found. -/
theorem C33_no_reference (X : Fns E) (rd : Nat → Res (FV E)) : opSide X rd none none = .ok (missingV, false) := rfl

/-- An existence test whose operand is not itself a field succeeds as soon as the operand has been computed, missing or not. -/
theorem C33_function (X : Fns E) (rd : Nat → Res (FV E)) (lit : Option (FV E)) (b : Nat) (f : FName) (ps : Refs E) {v : FV E}
    (h : resolveParam X rd lit (.fn f ps) = .ok v) : opResult X rd lit ⟨b, .exists_, some (.fn f ps), none⟩ = .ok (true, false) := by
  simp [opResult, opSide, h, Res.bind_ok, evalOp]

/-- An existence test of a field in a slot succeeds exactly if the field has been found. -/
theorem C33_slot (X : Fns E) (rd : Nat → Res (FV E)) (lit : Option (FV E)) (b s : Nat) {v : FV E} (h : rd s = .ok v) :
    opResult X rd lit ⟨b, .exists_, some (.slot s), none⟩ = .ok (decide (v.d.ty ≠ .missing), false) := by
  by_cases hv : v.d.ty = .missing <;> simp [opResult, opSide, resolveParam, h, Res.bind_ok, evalOp, hv]

/-- C33 read backwards is false too: `EXISTS (c + d)` is true on `{"a":1,"b":1}`, which has neither field. -/
theorem C33_function_negation :
    (transform demoComp 0 [.exist (.func [109, 97, 116, 104, 65, 100, 100] (.cons (.field ⟨0, [[99]]⟩) (.cons (.field ⟨0, [[100]]⟩) .nil)))] >>= fun df =>
      run demoFns df (newMatcher df) textAB1 >>= fun r => Res.ok r.1) = .ok (some true) ∧
    walk [[99]] docAB1 = [] ∧ walk [[100]] docAB1 = [] := by
  decide +kernel

/-- The hypotheses: `a + b` with both fields missing. -/
example : opResult demoFns (fun _ => .ok missingV) none (⟨0, .exists_, some (.fn .add (.cons (.slot 1) (.cons (.slot 2) .nil))), none⟩ : Op demoExt) =
    .ok (true, false) :=
  C33_function demoFns _ none 0 .add _ rfl

example : opResult demoFns (fun _ => .ok missingV) none (⟨0, .exists_, some (.slot 1), none⟩ : Op demoExt) = .ok (false, false) :=
  C33_slot demoFns _ none 0 1 (v := missingV) rfl

end Verif.Transform
