import Verif.Filter.Theorems
import Verif.Filter.Multi
import Verif.Transform.Compiles

/-!
# Which filters crash `GetFilterExpressionMatcher`

The exact condition on the filter: the fields of a condition and the patterns.
-/

namespace Verif.Filter
open Verif.FastVal Verif.Expr Verif.Transform
open Verif.Match (demoFns)

variable {E : Ext}

/-- Specification: the condition can be compiled.  Its fields do not collide (see `Collide`), and its pattern is a valid one of its
kind. -/
def Cond.Builds (N : Env E) (C : Comp E) : Cond E → Prop
  | .not c => c.Builds N C
  | .bool _ _ => True
  | .regex a l => ¬ Collide a.fields ∧ ∃ r, (if isPcre (l.text N) then C.pcre (l.text N) else C.regexp (l.text N)) = some r
  | .regexFn _ _ => True
  | .exist _ => True
  | .null s _ => ¬ Collide s.fields
  | .missing s _ => ¬ Collide s.fields
  | .cmp l _ _ r => ¬ Collide (l.fields ++ r.fields)

/-! ### Fields -/

/-- Fields of the document. -/
def docFields (ps : List Path) : List Field := ps.map (Field.mk 0)

theorem own_docFields (ps : List Path) : ownPaths none (docFields ps) = ps := by
  rw [ownPaths, docFields, List.filter_map, List.map_map]
  have : ps.filter ((fun f : Field => decide (Mine none f)) ∘ Field.mk 0) = ps := List.filter_eq_self.2 (fun p _ => by simp [Mine])
  rw [this]
  exact List.map_id' ps

/-- What is needed of an operand. -/
structure Fine (C : Comp E) (e : Expr E) (ps : List Path) : Prop where
  ok : OkParam C none e
  occs : occs e = docFields ps

theorem fine_neg {C : Comp E} {e : Expr E} {ps : List Path} (neg : Bool) (h : Fine C e ps) : Fine C (negE neg e) ps := by
  cases neg with
  | false => exact h
  | true => exact ⟨by simpa [negE, OkParam, OkParams] using h.ok, by simpa [negE, Transform.occs, occsAll] using h.occs⟩

theorem Num.fine (C : Comp E) (n : Num E) : Fine C n.expr [] := by
  cases n <;> exact ⟨trivial, rfl⟩

theorem Lit.fine (C : Comp E) (l : Lit E) : Fine C l.expr [] := by
  cases l with
  | num n => exact n.fine C
  | str s => exact ⟨trivial, rfl⟩

theorem Fld.fine (C : Comp E) (f : Fld) : Fine C (f.expr : Expr E) [f.path] := by
  rw [Fld.expr]
  exact fine_neg _ ⟨Or.inl rfl, rfl⟩

theorem fine_one {C : Comp E} {e : Expr E} {n : List Nat} {ps : List Path} (h : Fine C e ps) : Fine C (.func n (.cons e .nil)) ps :=
  ⟨by simpa [OkParam, OkParams] using h.ok, by simpa [Transform.occs, occsAll] using h.occs⟩

theorem fine_two {C : Comp E} {e e' : Expr E} {n : List Nat} {ps ps' : List Path} (h : Fine C e ps) (h' : Fine C e' ps') :
    Fine C (.func n (.cons e (.cons e' .nil))) (ps ++ ps') :=
  ⟨by simpa [OkParam, OkParams] using ⟨h.ok, h'.ok⟩, by simp [Transform.occs, occsAll, h.occs, h'.occs, docFields]⟩

theorem Term.fine (C : Comp E) (t : Term E) : Fine C t.expr t.fields := by
  cases t with
  | field f => exact f.fine C
  | left n o f => exact fine_two (n.fine C) (f.fine C)
  | right f o n => exact fine_two (f.fine C) (n.fine C)
  | both f o g => exact fine_two (f.fine C) (g.fine C)

mutual
  theorem Fn.fine (C : Comp E) (N : Env E) : ∀ f : Fn E, Fine C (f.expr N) f.fields
    | .pi neg => by rw [Fn.expr, Fn.fields]; exact fine_neg neg ⟨trivial, rfl⟩
    | .e neg => by rw [Fn.expr, Fn.fields]; exact fine_neg neg ⟨trivial, rfl⟩
    | .one neg n a => by rw [Fn.expr, Fn.fields]; exact fine_neg neg (fine_one (Arg.fine C N a))
    | .two neg n a b => by rw [Fn.expr, Fn.fields]; exact fine_neg neg (fine_two (Arg.fine C N a) (Arg.fine C N b))
  theorem Arg.fine (C : Comp E) (N : Env E) : ∀ a : Arg E, Fine C (a.expr N) a.fields
    | .fn f => by rw [Arg.expr, Arg.fields]; exact Fn.fine C N f
    | .term t => by rw [Arg.expr, Arg.fields]; exact t.fine C
    | .lit l => by rw [Arg.expr, Arg.fields]; exact l.fine C
end

theorem Side.fine (C : Comp E) (N : Env E) (s : Side E) : Fine C (s.expr N) s.fields := by
  cases s with
  | fn f => exact f.fine C N
  | bool b u => exact ⟨trivial, rfl⟩
  | term t => exact t.fine C
  | lit l => exact l.fine C

/-! ### Conditions -/

theorem compiles_cmp {C : Comp E} {l r : Expr E} {ps ps' : List Path} (c : Cmp) (h : Fine C l ps) (h' : Fine C r ps') :
    Compiles C none (.cmp c l r) ↔ ¬ Collide (ps ++ ps') := by
  rw [Compiles, h.occs, h'.occs]
  have : docFields ps ++ docFields ps' = docFields (ps ++ ps') := by simp [docFields]
  rw [this, own_docFields]
  exact ⟨fun hh => hh.2.2, fun hh => ⟨h.ok, h'.ok, hh⟩⟩

theorem not_collide_one (p : Path) : ¬ Collide [p] := by
  rintro ⟨big, l, q, r, h1, h2, h3, _⟩
  have hb : big = p := by simpa using List.mem_of_find?_eq_some h1
  cases l with
  | nil => simp at h2; rw [hb, ← h2.1] at h3; omega
  | cons x l => simp at h2

theorem Cond.compiles_iff (N : Env E) (C : Comp E) : ∀ c : Cond E, c.valid N = true → (Compiles C none (c.expr N) ↔ c.Builds N C)
  | .not c, h => by rw [Cond.expr, Compiles, Cond.Builds]; exact Cond.compiles_iff N C c h
  | .bool b u, _ => by cases b <;> simp [Cond.expr, Compiles, Cond.Builds]
  | .regex a l, _ => by
    have ha := a.fine C N
    have hpath : occs (patExpr N l : Expr E) = docFields [] := by rw [patExpr]; split <;> rfl
    have hok : OkParam C none (patExpr N l) ↔ ∃ r, (if isPcre (l.text N) then C.pcre (l.text N) else C.regexp (l.text N)) = some r := by
      rw [patExpr]
      split
      · rw [OkParam]
        exact ⟨fun ⟨s, x, h1, h2⟩ => ⟨x, by cases h1; exact h2⟩, fun ⟨r, hr⟩ => ⟨_, r, rfl, hr⟩⟩
      · rw [OkParam]
        exact ⟨fun ⟨s, x, h1, h2⟩ => ⟨x, by cases h1; exact h2⟩, fun ⟨r, hr⟩ => ⟨_, r, rfl, hr⟩⟩
    rw [Cond.expr, Cond.Builds, ← hok]
    constructor
    · intro h
      have h1 : OkParam C none (patExpr N l) := by rw [Compiles] at h; exact h.2.1
      exact ⟨by simpa using (compiles_cmp .like ha ⟨h1, hpath⟩).1 h, h1⟩
    · exact fun h => (compiles_cmp .like ha ⟨h.2, hpath⟩).2 (by simpa using h.1)
  | .regexFn _ _, h => by simp [Cond.valid] at h
  | .exist f, _ => by
    have hf : Fine C (f.expr : Expr E) [f.path] := f.fine C
    rw [Cond.expr, Compiles, hf.occs, own_docFields, Cond.Builds]
    simp [hf.ok, not_collide_one]
  | .null s neg, _ => by
    have h := compiles_cmp .eq (s.fine C N) (⟨trivial, rfl⟩ : Fine C (.value (.json .null)) [])
    rw [List.append_nil] at h
    rw [Cond.expr, Cond.Builds]
    cases neg with
    | false => exact h
    | true => rw [if_pos rfl, Compiles]; exact h
  | .missing s neg, _ => by
    have hs := s.fine C N
    rw [Cond.expr, Cond.Builds]
    cases neg <;> simp [Compiles, hs.ok, hs.occs, own_docFields]
  | .cmp l c0 c1 r, h => by
    rw [Cond.valid, Bool.and_eq_true] at h
    obtain ⟨c, hc⟩ := Option.isSome_iff_exists.1 h.2
    rw [Cond.expr, hc, Cond.Builds]
    exact compiles_cmp c (l.fine C N) (r.fine C N)

mutual
  theorem Filt.compiles_iff (N : Env E) (C : Comp E) : ∀ f : Filt E, f.valid N = true →
      (CompilesAll C none (f.exprs N) ↔ ∀ c ∈ f.conds, c.Builds N C)
    | .one c, h => by
      rw [Filt.valid] at h
      rw [Filt.exprs, Filt.conds, CompilesAll, Compiles]
      exact Conj.compiles_iff N C c h
    | .or c r, h => by
      rw [Filt.valid, Bool.and_eq_true] at h
      have h1 := Conj.compiles_iff N C c h.1
      have h2 := Filt.compiles_iff N C r h.2
      rw [compilesAll_iff] at h2 ⊢
      have hne : (r.exprs N).toList ≠ [] := by cases r <;> simp [Filt.exprs, Exprs.toList]
      simp only [hne, ne_eq, not_false_eq_true, true_and] at h2
      rw [Filt.exprs, Filt.conds]
      simp only [Exprs.toList, List.mem_cons, List.mem_append, forall_eq_or_imp, h2, Compiles, h1, ne_eq, reduceCtorEq, not_false_eq_true, true_and]
      exact ⟨fun h c hc => hc.elim (h.1 c) (h.2 c), fun h => ⟨fun c hc => h c (Or.inl hc), fun c hc => h c (Or.inr hc)⟩⟩
  theorem Conj.compiles_iff (N : Env E) (C : Comp E) : ∀ f : Conj E, f.valid N = true →
      (CompilesAll C none (f.exprs N) ↔ ∀ c ∈ f.conds, c.Builds N C)
    | .one i, h => by
      rw [Conj.valid] at h
      rw [Conj.exprs, Conj.conds, CompilesAll]
      exact Item.compiles_iff N C i h
    | .and i r, h => by
      rw [Conj.valid, Bool.and_eq_true] at h
      have h1 := Item.compiles_iff N C i h.1
      have h2 := Conj.compiles_iff N C r h.2
      rw [compilesAll_iff] at h2 ⊢
      have hne : (r.exprs N).toList ≠ [] := by cases r <;> simp [Conj.exprs, Exprs.toList]
      simp only [hne, ne_eq, not_false_eq_true, true_and] at h2
      rw [Conj.exprs, Conj.conds]
      simp only [Exprs.toList, List.mem_cons, List.mem_append, forall_eq_or_imp, h2, h1, ne_eq, reduceCtorEq, not_false_eq_true, true_and]
      exact ⟨fun h c hc => hc.elim (h.1 c) (h.2 c), fun h => ⟨fun c hc => h c (Or.inl hc), fun c hc => h c (Or.inr hc)⟩⟩
  theorem Item.compiles_iff (N : Env E) (C : Comp E) : ∀ i : Item E, i.valid N = true →
      (Compiles C none (i.expr N) ↔ ∀ c ∈ i.conds, c.Builds N C)
    | .paren f, h => by
      rw [Item.valid] at h
      rw [Item.expr, Item.conds, Compiles]
      exact Filt.compiles_iff N C f h
    | .cond c, h => by
      rw [Item.valid] at h
      rw [Item.expr, Item.conds]
      simpa using Cond.compiles_iff N C c h
end

/-- **C87.**  For every text that the grammar accepts, `GetFilterExpressionMatcher` returns an error exactly if the filter is not valid
(C50); otherwise it returns a matcher exactly if all conditions can be compiled, and panics if not. -/
theorem C87_filter (N : Env E) (C : Comp E) (parse : List Nat → Option (FilterExpression E)) (text : List Nat) (f : Filt E) (ht : text ≠ [])
    (hp : parse text = some f.build) :
    (getMatcher N C parse text = .ok none ↔ f.valid N = false) ∧
    ((∃ df, getMatcher N C parse text = .ok (some df)) ↔ f.valid N = true ∧ ∀ c ∈ f.conds, c.Builds N C) ∧
    (getMatcher N C parse text = .panic ↔ f.valid N = true ∧ ∃ c ∈ f.conds, ¬ c.Builds N C) := by
  cases hv : f.valid N with
  | false =>
    have := C50_invalid N C parse text f hp hv
    rw [this]
    simp
  | true =>
    have hg : getMatcher N C parse text = (transform C 0 [f.expr N] >>= fun df => .ok (some df)) := by
      rw [getMatcher, newParser, if_neg ht, hp]
      simp only [C50_output, hv]
      rfl
    have hiff : (∀ e ∈ [f.expr N], Compiles C none e) ↔ ∀ c ∈ f.conds, c.Builds N C := by
      simp only [List.mem_singleton, forall_eq]
      rw [Filt.expr, Compiles]
      exact Filt.compiles_iff N C f hv
    obtain ⟨h1, h2⟩ := C86_compiles C 0 [f.expr N]
    rw [hiff] at h1 h2
    by_cases hall : ∀ c ∈ f.conds, c.Builds N C
    · obtain ⟨df, hdf⟩ := h1.2 hall
      rw [hg, hdf]
      refine ⟨by simp, ⟨fun _ => ⟨rfl, hall⟩, fun _ => ⟨df, rfl⟩⟩, by simp, ?_⟩
      rintro ⟨_, c, hc, hn⟩
      exact absurd (hall c hc) hn
    · rw [hg, h2 hall]
      refine ⟨by simp, ⟨fun ⟨df, h⟩ => by simp at h, fun h => absurd h.2 hall⟩, fun _ => ⟨rfl, ?_⟩, fun _ => rfl⟩
      apply Classical.byContradiction
      intro hn
      exact hall (fun c hc => Classical.byContradiction (fun h => hn ⟨c, hc, h⟩))

/-- A matcher for the filter of `C50_output`. -/
example : ∃ df, getMatcher demoEnv demoComp (fun _ => some demoFilt.build) [120] = .ok (some df) := by
  refine (C87_filter demoEnv demoComp _ [120] demoFilt (by simp) rfl).2.1.2 ⟨by decide, fun c hc => ?_⟩
  simp only [demoFilt, Filt.conds, Conj.conds, Item.conds, List.mem_append, List.mem_cons, List.not_mem_nil, or_false] at hc
  rcases hc with rfl | rfl | rfl | rfl <;>
    simp only [Cond.Builds, Side.fields, Term.fields, List.append_nil, not_collide_one, not_false_eq_true]

/-- `a = a.b`: the field `a` with a part of itself. -/
def partFilt : Filt demoExt := .one (.one (.cond (.cmp (.term (.field (fld 97))) .eq none
  (.term (.field ⟨false, [⟨.ident [97], []⟩, ⟨.ident [98], []⟩]⟩)))))

/-- The filter `a = a.b` is accepted by the grammar and by `OutputExpression`, and crashes the process when it is compiled. -/
theorem C87_crash : getMatcher demoEnv demoComp (fun _ => some partFilt.build) [120] = .panic := by
  refine (C87_filter demoEnv demoComp _ [120] partFilt (by simp) rfl).2.2.2 ⟨by decide, _, List.mem_singleton.2 rfl, ?_⟩
  simp only [Cond.Builds, Classical.not_not]
  decide

/-- A pattern that `regexp.Compile` (or the PCRE library) rejects crashes the process, whatever field it is compared with. -/
theorem C87_pattern (N : Env E) (C : Comp E) (parse : List Nat → Option (FilterExpression E)) (text : List Nat) (a : Arg E) (l : Lit E) (ht : text ≠ [])
    (hp : parse text = some (Filt.one (.one (.cond (.regex a l)))).build) (hv : (Cond.regex a l).valid N = true)
    (hb : (if isPcre (l.text N) then C.pcre (l.text N) else C.regexp (l.text N)) = none) : getMatcher N C parse text = .panic := by
  refine (C87_filter N C parse text _ ht hp).2.2.2 ⟨hv, _, List.mem_singleton.2 rfl, ?_⟩
  rintro ⟨_, r, hr⟩
  rw [hb] at hr; cases hr

example : getMatcher demoEnv ⟨fun _ => none, fun _ => none⟩
    (fun _ => some (Filt.one (.one (.cond (.regex (.term (.field (fld 97))) (.str [40]))))).build) [120] = .panic :=
  C87_pattern demoEnv ⟨fun _ => none, fun _ => none⟩ _ _ (.term (.field (fld 97))) (.str [40]) (by simp) rfl (by decide) (by split <;> rfl)

end Verif.Filter
