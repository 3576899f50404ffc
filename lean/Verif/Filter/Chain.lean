import Verif.Filter.Multi

/-!
# Chains of arithmetic operators in filters (C78)

The grammar accepts `Field { MathOp ( MathValue | Field ) }` (filterExprParser.go:25-27, 513-518), that is, any number of
operators in a row, but the structure that the parser fills in has room for one operator, one number and one further field.
Nothing is assumed about the parser here: the theorems are about every structure it could return.
-/

namespace Verif.Filter
open Verif.FastVal Verif.Expr Verif.Transform
open Verif.Match (valOf)
open Verif.Token (D)

variable {E : Ext}

/-! ### Specification -/

/-- What follows an operator. -/
inductive Opd (E : Ext) where
  | num (n : Num E)
  | fld (f : Fld)

def Opd.val (X : Fns E) (env : Path → Res (FV E)) : Opd E → Res (FV E)
  | .num n => .ok ⟨n.data, true⟩
  | .fld f => env f.path >>= negIf X f.neg

/-- The value of `acc o₁ x₁ o₂ x₂ …`, computed from left to right. -/
def chainVal (X : Fns E) (env : Path → Res (FV E)) : Res (FV E) → List (Arith × Opd E) → Res (FV E)
  | acc, [] => acc
  | acc, (o, x) :: r => chainVal X env (acc >>= fun a => x.val X env >>= fun b => applyFn X o.fn [a, b]) r

/-- The structure `s` stands for the chain: it is turned into an expression that has the value of the chain, whatever values the
fields have. -/
def StandsFor (X : Fns E) (C : Comp E) (s : FEFieldWithMath E) (f : Fld) (l : List (Arith × Opd E)) : Prop :=
  ∃ e, s.out = .ok (some e) ∧
    ∀ env : Transform.Env, mVal X C env e = chainVal X (fun p => fieldVal (env p)) (fieldVal (env f.path) >>= negIf X f.neg) l

/-- The full statement: what the grammar accepts can be represented. -/
def C78_full : Prop :=
  ∀ (E : Ext) (X : Fns E) (C : Comp E) (f : Fld) (l : List (Arith × Opd E)), ∃ s, StandsFor X C s f l

/-! ### What structures are turned into -/

mutual
  /-- The fields and constants of an expression, with repetitions. -/
  def leaves : Expr E → Nat
    | .func _ ps => leavesAll ps
    | _ => 1
  def leavesAll : Exprs E → Nat
    | .nil => 0
    | .cons e r => leaves e + leavesAll r
end

mutual
  theorem paths_leaves : ∀ e : Expr E, (paths e).length ≤ leaves e
    | .func _ ps => by rw [paths, leaves]; exact pathsAll_leaves ps
    | .field _ => by simp [paths, leaves]
    | .value _ | .regex _ | .pcre _ | .time _ | .tru | .fals | .or _ | .and _ | .not _ | .cmp _ _ _ | .exist _ | .notExist _
    | .loop _ _ _ _ => by simp [paths]
  theorem pathsAll_leaves : ∀ ps : Exprs E, (pathsAll ps).length ≤ leavesAll ps
    | .nil => by simp [pathsAll]
    | .cons e r => by
      rw [pathsAll, leavesAll, List.length_append]
      exact Nat.add_le_add (paths_leaves e) (pathsAll_leaves r)
end

theorem andThen_ok {α β : Type} {x : Res (Option α)} {f : α → Res (Option β)} {b : β} (h : andThen x f = .ok (some b)) :
    ∃ a, x = .ok (some a) ∧ f a = .ok (some b) := by
  cases x with
  | ok o =>
    cases o with
    | none => cases h
    | some a => exact ⟨a, rfl, h⟩
  | panic => cases h
  | stuck => cases h

theorem FEField.out_leaves {f : FEField} {e : Expr E} (h : f.out = .ok (some e)) : leaves e = 1 := by
  rw [FEField.out] at h
  obtain ⟨p, -, h2⟩ := Res.bind_eq_ok.1 h
  split at h2
  · cases h2; rfl
  · cases h2; rfl

theorem FEMathValue.out_leaves {f : FEMathValue E} {e : Expr E} (h : f.out = .ok (some e)) : leaves e = 1 := by
  rw [FEMathValue.out] at h
  split at h
  · cases h; rfl
  · split at h
    · cases h; rfl
    · cases h

theorem FEType0.out_leaves {f : FEType0 E} {e : Expr E} (h : f.out = .ok (some e)) : leaves e ≤ 2 := by
  rw [FEType0.out] at h
  split at h
  · split at h
    · cases h
    · obtain ⟨v, hv, h⟩ := andThen_ok h
      obtain ⟨w, hw, h⟩ := andThen_ok h
      cases h
      simp [call, Exprs.ofList, leaves, leavesAll, FEMathValue.out_leaves hv, FEField.out_leaves hw]
  · cases h

theorem FEType1.out_leaves {f : FEType1 E} {e : Expr E} (h : f.out = .ok (some e)) : leaves e ≤ 2 := by
  rw [FEType1.out] at h
  split at h
  · split at h <;> cases h
  · split at h
    · split at h
      · cases h
      · obtain ⟨v, hv, h⟩ := andThen_ok h
        obtain ⟨w, hw, h⟩ := andThen_ok h
        cases h
        simp [call, Exprs.ofList, leaves, leavesAll, FEMathValue.out_leaves hw, FEField.out_leaves hv]
    · split at h
      · cases h
      · obtain ⟨v, hv, h⟩ := andThen_ok h
        obtain ⟨w, hw, h⟩ := andThen_ok h
        cases h
        simp [call, Exprs.ofList, leaves, leavesAll, FEField.out_leaves hw, FEField.out_leaves hv]
    · rw [FEField.out_leaves h]; decide

/-! ### C78 -/

/-- Whatever structure the parser returns, at most two operands of a chain are left in the expression. -/
theorem C78_two {s : FEFieldWithMath E} {e : Expr E} (h : s.out = .ok (some e)) : leaves e ≤ 2 := by
  rw [FEFieldWithMath.out] at h
  split at h
  · exact FEType0.out_leaves h
  · split at h
    · exact FEType1.out_leaves h
    · cases h

/-- A field alone and a field with one operator are represented as they are written.  Missing: chains of two or more
operators, see `C78_full` and `C78_negation`. -/
theorem C78_short_partial (X : Fns E) (C : Comp E) (f : Fld) (l : List (Arith × Opd E)) (h : l.length ≤ 1) :
    ∃ s, StandsFor X C s f l := by
  have hf : ∀ (env : Transform.Env) (g : Fld), mVal X C env (g.expr : Expr E) = fieldVal (env g.path) >>= negIf X g.neg := by
    intro env g
    rw [Fld.expr, mVal_neg, mVal]
  match l, h with
  | [], _ => exact ⟨(Term.field f).build, _, Term.out_build _, fun env => by rw [Term.expr, hf]; rfl⟩
  | [(o, .num n)], _ =>
    refine ⟨(Term.right f o n).build, _, Term.out_build _, fun env => ?_⟩
    rw [Term.expr, mVal_two X C env o.fnameOf_name o.arity, hf, Num.mVal]
    rfl
  | [(o, .fld g)], _ =>
    refine ⟨(Term.both f o g).build, _, Term.out_build _, fun env => ?_⟩
    rw [Term.expr, mVal_two X C env o.fnameOf_name o.arity, hf, hf]
    rfl

/-- The chain `- a % 2`. -/
example (X : Fns E) (C : Comp E) : ∃ s, StandsFor X C s ⟨true, [⟨.ident [97], []⟩]⟩ [(.mod, .num (.int false 2#64))] :=
  C78_short_partial X C _ _ (Nat.le_refl _)

theorem three_not {ps : List Path} {p q r : Path} (h : ps.length ≤ 2) (hpq : p ≠ q) (hpr : p ≠ r) (hqr : q ≠ r) : p ∉ ps ∨ q ∉ ps ∨ r ∉ ps := by
  match ps, h with
  | [], _ => simp
  | [a], _ => grind
  | [a, b], _ => grind

/-- The sum of three different fields is represented by no structure: the parser would have to leave one of them out. -/
theorem C78_sum (X : Fns E) (C : Comp E) (f g k : Fld) (h1 : f.path ≠ g.path) (h2 : f.path ≠ k.path) (h3 : g.path ≠ k.path)
    (hn : f.neg = false ∧ g.neg = false ∧ k.neg = false) (s : FEFieldWithMath E) : ¬ StandsFor X C s f [(.add, .fld g), (.add, .fld k)] := by
  rintro ⟨e, ho, he⟩
  have hl := Nat.le_trans (paths_leaves e) (C78_two ho)
  have key : ∀ w ∉ paths e, mVal X C (fun _ => some (.lit .integer [49])) e =
      mVal X C (fun p => if p = w then some (.lit .integer [50]) else some (.lit .integer [49])) e := by
    intro w hw
    apply mVal_congr
    intro p hp
    have : p ≠ w := fun hc => hw (hc ▸ hp)
    rw [if_neg this]
  have v1 : (valOf (.lit .integer [49]) : Res (FV E)) = .ok ⟨.int 1, false⟩ := rfl
  have v2 : (valOf (.lit .integer [50]) : Res (FV E)) = .ok ⟨.int 2, false⟩ := rfl
  have sum : ∀ a b : BitVec 64, (applyFn X .add [⟨.int a, false⟩, ⟨.int b, false⟩]) = .ok ⟨.int (a + b), false⟩ := fun _ _ => rfl
  have neg : ∀ v : FV E, negIf X false v = .ok v := fun _ => rfl
  have absurd : ∀ a b : BitVec 64, a ≠ b → (Res.ok (⟨.int a, false⟩ : FV E)) ≠ .ok ⟨.int b, false⟩ := fun a b hab hc => by
    injection hc with hc
    injection hc with hc
    injection hc with hc
    exact hab hc
  simp only [he, chainVal, Opd.val, hn.1, hn.2.1, hn.2.2, fieldVal, Arith.fn] at key
  rcases three_not hl h1 h2 h3 with hw | hw | hw <;> have key := key _ hw
  · simp only [if_neg h1.symm, if_neg h2.symm, if_true, v1, v2, Res.bind_ok, neg, sum] at key
    exact absurd _ _ (by decide) key
  · simp only [if_neg h1, if_neg h3.symm, if_true, v1, v2, Res.bind_ok, neg, sum] at key
    exact absurd _ _ (by decide) key
  · simp only [if_neg h2, if_neg h3, if_true, v1, v2, Res.bind_ok, neg, sum] at key
    exact absurd _ _ (by decide) key

/-- `a + b + c` is accepted by the grammar, but cannot be represented. -/
theorem C78_negation : ¬ C78_full := fun h => by
  obtain ⟨s, hs⟩ := h demoExt Match.demoFns demoComp (fld 97) [(.add, .fld (fld 98)), (.add, .fld (fld 99))]
  exact C78_sum Match.demoFns demoComp _ _ _ (by decide) (by decide) (by decide) ⟨rfl, rfl, rfl⟩ s hs

/-- If the parser has stored a number and a further field (for `a + b * 2` or `a * 2 + b`), the field is ignored and the only
operator that is left is applied to the number. -/
theorem C78_ignored (X : Fns E) (C : Comp E) (f g : Fld) (o : Arith) (n : Num E) :
    StandsFor X C ⟨none, some ⟨some f.build, some o.build, some n.build, some g.build⟩, none⟩ f [(o, .num n)] := by
  refine ⟨(Term.right f o n).expr, ?_, fun env => ?_⟩
  · rw [← Term.out_build]; rfl
  · rw [Term.expr, mVal_two X C env o.fnameOf_name o.arity, Fld.expr, mVal_neg, mVal, Num.mVal]
    rfl

end Verif.Filter
