import Verif.Transform.Order
import Verif.Match.Damage

/-!
# Compiled expressions on damaged documents
-/

namespace Verif.Transform
open Verif.FastVal Verif.Match Verif.Expr
open Verif.Token (D Es Ms Tok TokText IsWs)

variable {E : Ext}

/-- C38 for arbitrary bytes: `Match` comes to an end.  (Missing: it may end with a panic, see `C38_negation`.) -/
theorem C38_terminates_partial (X : Fns E) (C : Comp E) (slot0 : Nat) {es : List (Expr E)} {g : Expr E} {gs : List (Expr E)}
    (hg : genExprs es = g :: gs) (hfrag : ∀ x ∈ g :: gs, Frag C 0 x) :
    ∃ df, transform C slot0 es = .ok df ∧ ∀ m, Used X df m → ∀ data, run X df (resetMatcher m) data ≠ .stuck := by
  obtain ⟨df, h1, hw, _, _⟩ := transform_frag C slot0 es hg hfrag
  exact ⟨df, h1, fun m hm data => run_ends X hw (compiled_noSlots C hfrag) (ready_reset X hm) data⟩

example : ∃ df, transform demoComp 0 demoLoops = .ok df ∧ ∀ m, Used demoFns df m → ∀ data, run demoFns df (resetMatcher m) data ≠ .stuck :=
  C38_terminates_partial demoFns demoComp 0 rfl (fun x hx => (demoLoops_frag x hx).1)

/-- C66 for texts damaged between two tokens by a byte that occurs in no JSON text (outside of strings): whatever follows, `Match`
reports an error, or it gives the verdict (and the results of the expressions) that every document beginning with the undamaged part
has.  (Missing: texts that end early, damage inside of tokens, damage by bytes that may occur in JSON texts, see `C66_negation`;
comparisons of several fields.) -/
theorem C66_partial (X : Fns E) (C : Comp E) (slot0 : Nat) {es : List (Expr E)} {g : Expr E} {gs : List (Expr E)}
    (hg : genExprs es = g :: gs) (hfrag : ∀ x ∈ g :: gs, Frag C 0 x) (hsafe : ∀ x ∈ g :: gs, SafeE x) (hone : ∀ x ∈ g :: gs, OneSidedE x)
    {pre rest post : List Nat} {x : Nat} (hx : Foreign x) {r : D} (hr : Begins (pre ++ post) r) {ts : List (Tok × List Nat)}
    (hcut : Token.Reads ⟨pre ++ post, 0⟩ ts ⟨pre ++ post, pre.length⟩) :
    ∃ df, transform C slot0 es = .ok df ∧ ∀ m, Used X df m → ∃ b m1 o m2,
      run X df (resetMatcher m) (pre ++ post) = .ok (some b, m1) ∧ run X df (resetMatcher m) (pre ++ x :: rest) = .ok (o, m2) ∧
        (o = none ∨ (o = some b ∧ ∀ i, expressionMatched df m2 i = expressionMatched df m1 i)) := by
  obtain ⟨df, h1, hw, _, _⟩ := transform_frag C slot0 es hg hfrag
  refine ⟨df, h1, fun m hm => ?_⟩
  have hn := compiled_noSlots C hfrag
  obtain ⟨b, m1, e1⟩ := C38_documents_partial X hw (compiled_safe C _ hfrag hsafe) hr hm
  have hne : pre ++ post ≠ [] := by
    intro h0
    obtain ⟨hwf, w1, w2, _, _, ht⟩ := hr
    rw [h0] at ht
    have : r.text = [] := by
      have := congrArg List.length ht
      simp only [List.length_nil, List.length_append] at this
      exact List.eq_nil_of_length_eq_zero (by omega)
    cases r with
    | lit ty w => exact (hwf.2.ne_nil) this
    | arr ws es => cases this
    | obj ws ms => cases this
  have hc := cut_of_reads (D2 := pre ++ post) (n := pre.length) (rest := rest) (by simp) hx
  rw [List.take_left'  rfl] at hc
  have ht := run_tie hc ⟨by simp, ts, hcut⟩ (by simp) hne X hw hn (compiled_one C hfrag hone) (ready_reset X hm)
  rw [e1] at ht
  cases e2 : run X df (resetMatcher m) (pre ++ x :: rest) with
  | ok a =>
    obtain ⟨o, m2⟩ := a
    rw [e2] at ht
    refine ⟨b, m1, o, m2, e1, rfl, ?_⟩
    rcases ht with h | ⟨h, hbt, _⟩
    · exact Or.inl h
    · refine Or.inr ⟨h, fun i => ?_⟩
      simp only at hbt
      unfold expressionMatched
      rw [hbt]
  | panic => rw [e2] at ht; exact ht.elim
  | stuck => exact absurd e2 (run_ends X hw hn (ready_reset X hm) _)

/-- `a = 1` on `{"a":1` followed by `,` and a byte that is no JSON: the verdict is that of `{"a":1,"b":1}`. -/
example : ∃ df, transform demoComp 0 demoExprs = .ok df ∧ ∀ m, Used demoFns df m → ∃ b m1 o m2,
    run demoFns df (resetMatcher m) ([123, 34, 97, 34, 58, 49] ++ [44, 34, 98, 34, 58, 49, 125]) = .ok (some b, m1) ∧
    run demoFns df (resetMatcher m) ([123, 34, 97, 34, 58, 49] ++ 0 :: [44, 34, 98]) = .ok (o, m2) ∧
    (o = none ∨ (o = some b ∧ ∀ i, expressionMatched df m2 i = expressionMatched df m1 i)) :=
  C66_partial demoFns demoComp 0 rfl (fun x hx => (demoExprs_frag x hx).1) (fun x hx => (demoExprs_frag x hx).2.1)
    (fun x hx => (demoExprs_frag x hx).2.2.2) (by simp [Foreign]) (r := docAB)
    ⟨by simp [docAB, D.WF, Ms.WF, IsWs, text_a, text_b, text_1, Tok.isLiteral], [], [], by simp [IsWs], trivial, rfl⟩
    (ts := [(.objectStart, [123]), (.string, [34, 97, 34]), (.objectKeyDelim, [58]), (.integer, [49])])
    ⟨_, rfl, _, rfl, _, rfl, _, rfl, rfl⟩

/-- `Match` of a list of compiled expressions on a text. -/
def verdictOn (es : List (Expr demoExt)) (text : List Nat) : Res (Option Bool) :=
  transform demoComp 0 es >>= fun df => run demoFns df (newMatcher df) text >>= fun r => .ok r.1

/-- C66 as stated is false.  A text that ends early gets a verdict without an error, and not that of the document: `NOT (b = 1)` is true on
`{"a":0`, false on `{"a":0,"b":1}`.  Other texts that end early make `Match` panic: `{"a":` .  Damage inside of a number: `b = 1` is true on
`{"b":1` followed by a zero byte, false on `{"b":10}`.  Damage by a byte that may occur: `a = 1` is true on `{"b":{"a":0` followed by `},"a":1}`, where the original is
`{"b":{"a":0,"a":1}}`. -/
theorem C66_negation :
    verdictOn [.not (.cmp .eq fieldB one)] [123, 34, 97, 34, 58, 48] = .ok (some true) ∧
    verdictOn [.not (.cmp .eq fieldB one)] [123, 34, 97, 34, 58, 48, 44, 34, 98, 34, 58, 49, 125] = .ok (some false) ∧
    verdictOn [.cmp .eq fieldA one] [123, 34, 97, 34, 58] = .panic ∧
    verdictOn [.cmp .eq fieldB one] [123, 34, 98, 34, 58, 49, 0] = .ok (some true) ∧
    verdictOn [.cmp .eq fieldB one] [123, 34, 98, 34, 58, 49, 48, 125] = .ok (some false) ∧
    verdictOn [.cmp .eq fieldA one] [123, 34, 98, 34, 58, 123, 34, 97, 34, 58, 48, 125, 44, 34, 97, 34, 58, 49, 125] = .ok (some true) ∧
    verdictOn [.cmp .eq fieldA one] [123, 34, 98, 34, 58, 123, 34, 97, 34, 58, 48, 44, 34, 97, 34, 58, 49, 125, 125] = .ok (some false) := by
  decide +kernel

/-- An error is reported where no verdict is possible: `a = 1` on `{"b":1` followed by a zero byte, and a loop over `{"a":[{"b":0}` followed by
a zero byte; the verdict is given where it is: `a = 1` on `{"a":1` followed by a zero byte. -/
example : verdictOn [.cmp .eq fieldA one] [123, 34, 98, 34, 58, 49, 0] = .ok none ∧
    verdictOn demoLoops [123, 34, 97, 34, 58, 91, 123, 34, 98, 34, 58, 48, 125, 0] = .ok none ∧
    verdictOn [.cmp .eq fieldA one] [123, 34, 97, 34, 58, 49, 0] = .ok (some true) := by
  decide +kernel

end Verif.Transform
