import Verif.Filter.Compiles
import Verif.Transform.Halts

/-!
# Matchers of filters end
-/

namespace Verif.Filter
open Verif.FastVal Verif.Match Verif.Expr Verif.Transform

variable {E : Ext}

theorem Cond.genuine (N : Env E) : ∀ c : Cond E, Genuine (c.expr N)
  | .not c => by rw [Cond.expr, Genuine]; exact Cond.genuine N c
  | .bool b _ => by cases b <;> simp [Cond.expr, Genuine]
  | .regex _ _ => by simp [Cond.expr, Genuine]
  | .regexFn _ _ => by simp [Cond.expr, Genuine]
  | .exist _ => by simp [Cond.expr, Genuine]
  | .null _ neg => by cases neg <;> simp [Cond.expr, Genuine]
  | .missing _ neg => by cases neg <;> simp [Cond.expr, Genuine]
  | .cmp l c0 c1 r => by
    rw [Cond.expr]
    split <;> simp [Genuine]

mutual
  theorem Filt.genuine (N : Env E) : ∀ f : Filt E, GenuineAll (f.exprs N)
    | .one c => by rw [Filt.exprs, GenuineAll, Genuine]; exact ⟨Conj.genuine N c, trivial⟩
    | .or c r => by rw [Filt.exprs, GenuineAll, Genuine]; exact ⟨Conj.genuine N c, Filt.genuine N r⟩
  theorem Conj.genuine (N : Env E) : ∀ f : Conj E, GenuineAll (f.exprs N)
    | .one i => by rw [Conj.exprs, GenuineAll]; exact ⟨Item.genuine N i, trivial⟩
    | .and i r => by rw [Conj.exprs, GenuineAll]; exact ⟨Item.genuine N i, Conj.genuine N r⟩
  theorem Item.genuine (N : Env E) : ∀ i : Item E, Genuine (i.expr N)
    | .paren f => by rw [Item.expr, Genuine]; exact Filt.genuine N f
    | .cond c => by rw [Item.expr]; exact Cond.genuine N c
end

/-- **C88 for filters.**  Whatever text the grammar accepts: if `GetFilterExpressionMatcher` returns a matcher, then matching ends on every
sequence of bytes from every state. -/
theorem C88_filter (X : Fns E) (N : Env E) (C : Comp E) (parse : List Nat → Option (FilterExpression E)) (text : List Nat) (f : Filt E)
    (ht : text ≠ []) (hp : parse text = some f.build) {df : Def E} (h : getMatcher N C parse text = .ok (some df)) (m : M) (data : List Nat) :
    run X df m data ≠ .stuck := by
  have hv : f.valid N = true := ((C87_filter N C parse text f ht hp).2.1.1 ⟨df, h⟩).1
  have hg : getMatcher N C parse text = (transform C 0 [f.expr N] >>= fun df => .ok (some df)) := by
    rw [getMatcher, newParser, if_neg ht, hp]
    simp only [C50_output, hv]
    rfl
  rw [hg] at h
  obtain ⟨df', h', h⟩ := Res.bind_eq_ok.1 h
  cases h
  refine C88_terminates X C 0 (fun e he => ?_) h' m data
  rw [List.mem_singleton.1 he]
  refine Genuine.bodied false _ ?_
  rw [Filt.expr, Genuine]
  exact f.genuine N

example (data : List Nat) : ∃ df, getMatcher demoEnv demoComp (fun _ => some demoFilt.build) [120] = .ok (some df) ∧
    run demoFns df ⟨⟨[], 7⟩, [], ⟨[.ff, .tt], 5⟩, true⟩ data ≠ .stuck := by
  obtain ⟨df, h⟩ := (C87_filter demoEnv demoComp (fun _ => some demoFilt.build) [120] demoFilt (by simp) rfl).2.1.2 ⟨by decide, fun c hc => by
    simp only [demoFilt, Filt.conds, Conj.conds, Item.conds, List.mem_append, List.mem_cons, List.not_mem_nil, or_false] at hc
    rcases hc with rfl | rfl | rfl | rfl <;>
      simp only [Cond.Builds, Side.fields, Term.fields, List.append_nil, not_collide_one, not_false_eq_true]⟩
  exact ⟨df, h, C88_filter demoFns demoEnv demoComp _ [120] demoFilt (by simp) rfl h _ data⟩

end Verif.Filter
