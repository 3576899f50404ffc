import Verif.Transform.Each
import Verif.Transform.MultiWhole
import Verif.Transform.Values
import Verif.Transform.Keys
import Verif.Json.Theorems
import Verif.Slow.Scope
import Verif.Composer.Theorems
import Verif.Filter.Anywhere
import Verif.Filter.Grammar
import Verif.Simple.Whole
import Verif.Simple.Names
import Verif.Simple.Hang

/-!
# Cases: expressions, compiler, matchers, parsers

Concrete instances of theorems of these parts that have none beside them: each example applies the theorem it names.
-/

namespace Verif.Transform
open Verif.FastVal Verif.Match Verif.Expr
open Verif.Token (D Es Ms Tok)

/-- `run_top` -/
example : ∃ df, transform demoComp 0 demoLoops = .ok df ∧ ∀ m, Ready df m →
    ∃ m', run demoFns df m textLoop = .ok (some (demoLoops.any (fun x => top demoFns demoComp x docLoop)), m') :=
  run_top demoFns rfl (fun x hx => (demoLoops_frag x hx).1) (fun x hx => (demoLoops_frag x hx).2.1) docLoop_text demoLoops_regular

example : demoLoops.any (fun x => top demoFns demoComp x docLoop) = true := by decide +kernel

/-- `C07_no_validation_panic` -/
example : transform demoComp 0 demoLoops = .panic ↔ tMerge demoComp demoLoops (initT 0) = .panic := C07_no_validation_panic demoComp 0 demoLoops rfl

/-- `C32_several_partial` -/
example : ∃ df, transform demoComp 0 demoPairs = .ok df :=
  C32_several_partial demoComp 0 demoPairs (fun x hx => (demoPairs_frag x hx).1)

/-- `C40_path`: the key written `a` is the field `a`. -/
example : membersAt [97] (spelled [(spellA, .lit .integer [49])]) = [.lit .integer [49]] :=
  (C40_path [97] [(spellA, .lit .integer [49])] (by
    intro x hx
    rw [List.mem_singleton] at hx
    subst hx
    exact spellA_WF)).trans rfl

/-- `C48_condition`, `C48_condition_left` -/
example : condHolds demoFns demoComp .lt fieldA (.value (.int 2#64)) (.lit .integer [49]) =
    outcome .lt (docCon (E := demoExt) (.int (BitVec.ofInt 64 (Lit.intVal [49]))) (.int 2#64)) :=
  C48_condition demoFns demoComp (by decide) ⟨0, [[97]]⟩ rfl (.int [49] text_1)
example : condHolds demoFns demoComp .lt (.value (.int 2#64)) fieldA (.lit .integer [49]) =
    outcome .lt (FastVal.flip (docCon (E := demoExt) (.int (BitVec.ofInt 64 (Lit.intVal [49]))) (.int 2#64))) :=
  C48_condition_left demoFns demoComp (by decide) ⟨0, [[97]]⟩ rfl (.int [49] text_1) rfl

/-- `C49_each_partial` -/
example : ∃ df, transform demoComp 0 demoLoops = .ok df ∧ ∀ m, Ready df m →
    ∃ b m', run demoFns df m textLoop = .ok (some b, m') ∧
      ∀ (i : Nat) (e : Expr demoExt), demoLoops[i]? = some e → NotConst e → expressionMatched df m' i = .ok (top demoFns demoComp e docLoop) :=
  C49_each_partial demoFns demoComp 0 rfl (fun x hx => (demoLoops_frag x hx).1) (fun x hx => (demoLoops_frag x hx).2.1) docLoop_text demoLoops_regular

end Verif.Transform

namespace Verif.Expr
open Verif.FastVal

/-- `C29_exact_partial` -/
example : ∃ fs, fieldRefs (.cmp .eq (.field ⟨0, [[97]]⟩) (.field ⟨0, [[98]]⟩) : Expr demoExt) = .ok fs ∧ fs.Nodup ∧
    ∀ f, f ∈ fs ↔ Free (.cmp .eq (.field ⟨0, [[97]]⟩) (.field ⟨0, [[98]]⟩) : Expr demoExt) f :=
  C29_exact_partial _ (by simp [Expr.Plain])

end Verif.Expr

namespace Verif.Composer
open Verif.Token (D Ms)
open Verif.Token (bytes)

/-- `C36_kept_partial` -/
example : remove demoC.text [bytes "a"] none = .ok (some ⟨kept [bytes "a"] demoC, gone [bytes "a"] demoC, true⟩) :=
  (C36_kept_partial _ _ demoC_WF [bytes "a"] (by decide) (by decide)).trans (by decide)

/-- `C36_exact`: an array that ends with a string is left, an error. -/
example : remove demoC.text [bytes "b"] none = .ok none :=
  (C36_exact _ _ demoC_WF [bytes "b"] (by decide) none (by simp)).trans (by rw [if_neg (by decide)])

end Verif.Composer

namespace Verif.Slow
open Verif.FastVal Verif.Expr Verif.Transform Verif.Json
open Verif.Match (demoFns)

/-- `C35_reference` -/
example : ∃ m', slowMatch (fun _ => some jLoop) (newSlow [demoAny]) textLoop = .ok (some true, m') ∧
    ∀ k e, [demoAny][k]? = some e → expressionMatched m' k = .ok (truth demoFns demoComp e docLoop) := by
  obtain ⟨m', h⟩ : ∃ s', slowMatch (fun _ => some jLoop) (newSlow [demoAny]) textLoop = .ok (some true, s') := ⟨_, rfl⟩
  refine ⟨m', h, (C35_reference demoFns demoComp demoQuote demoFloat (fun _ => some jLoop) rfl docLoop_decodes (newSlow [demoAny]) m' ?_ h).2⟩
  intro e he
  rw [show (newSlow [demoAny]).exprs = [demoAny] from rfl, List.mem_singleton] at he
  subst he
  exact demoAny_fits

/-- `C63_reset`, `C63_clean` -/
example : ∃ m : M demoExt, Reach (fun _ => some jNest) [nest 2] m ∧ (∀ u, m.vars u = none) ∧ reset m = newSlow [nest 2] := by
  have h : ∃ m', slowMatch (fun _ => some jNest) (newSlow [nest 2]) [] = .ok (some true, m') := ⟨_, rfl⟩
  obtain ⟨m', h⟩ := h
  have hr : Reach (fun _ => some jNest) [nest 2] m' := .doc _ [] _ _ .new h
  exact ⟨m', hr, C63_clean .new h, C63_reset hr⟩

end Verif.Slow

namespace Verif.Filter
open Verif.FastVal

/-- `C81_parse` -/
example : some demoFilt.build = none ∨ some demoFilt.build = some demoFilt.build :=
  C81_parse demoScan_law (fun _ => demoTokens) (fun _ => some demoFilt.build) demo_reads [120] demoFilt (demoFilt_writes false)

end Verif.Filter
