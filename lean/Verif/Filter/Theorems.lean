import Verif.Filter.Output

/-!
# C50, C51, C52: filters

C50: what `OutputExpression` makes of a filter.  C51: the compiled filter matches the documents on which the filter is true.
C52: operators and names stand for their functions.
-/

namespace Verif.Filter
open Verif.FastVal Verif.Expr Verif.Transform
open Verif.Match (valOf Ready run newMatcher Begins Divisor demoDoc demoFns)
open Verif.Token (D Ms Es)

variable {E : Ext}

/-! ### Names of functions -/

theorem Arith.fnameOf_name (o : Arith) : fnameOf (ascii o.name) = o.fn := by cases o <;> decide
theorem One.fnameOf_name (o : One) : fnameOf (ascii o.name) = o.fn := by cases o <;> decide
theorem Two.fnameOf_name (o : Two) : fnameOf (ascii o.name) = o.fn := by cases o <;> decide
theorem fnameOf_neg : fnameOf (ascii "mathNegate") = .neg := by decide

theorem Arith.arity (o : Arith) : o.fn.arity = 2 := by cases o <;> rfl
theorem One.arity (o : One) : o.fn.arity = 1 := by cases o <;> rfl
theorem Two.arity (o : Two) : o.fn.arity = 2 := by cases o <;> rfl

/-! ### Values -/

theorem paramVal_one (X : Fns E) (C : Comp E) (x : FV E) {s : List Nat} {f : FName} (h : fnameOf s = f) (ha : f.arity = 1) (e : Expr E) :
    paramVal X C x (.func s (.cons e .nil)) = paramVal X C x e >>= fun v => applyFn X f [v] := by
  rw [paramVal, h, ha, paramVals, paramVals]
  cases paramVal X C x e <;> rfl

theorem paramVal_two (X : Fns E) (C : Comp E) (x : FV E) {s : List Nat} {f : FName} (h : fnameOf s = f) (ha : f.arity = 2) (e e' : Expr E) :
    paramVal X C x (.func s (.cons e (.cons e' .nil))) =
      paramVal X C x e >>= fun v => paramVal X C x e' >>= fun w => applyFn X f [v, w] := by
  rw [paramVal, h, ha, paramVals, paramVals, paramVals]
  cases paramVal X C x e with
  | ok v => cases paramVal X C x e' <;> rfl
  | _ => rfl

theorem paramVal_neg (X : Fns E) (C : Comp E) (x : FV E) (neg : Bool) (e : Expr E) :
    paramVal X C x (negE neg e) = paramVal X C x e >>= negIf X neg := by
  cases neg with
  | true => exact paramVal_one X C x fnameOf_neg rfl e
  | false =>
    show paramVal X C x e = _
    cases paramVal X C x e <;> rfl

theorem Num.paramVal (X : Fns E) (C : Comp E) (x : FV E) (n : Num E) : Transform.paramVal X C x n.expr = .ok ⟨n.data, true⟩ := by
  cases n with
  | int neg v => rfl
  | float neg y => rfl

theorem Lit.paramVal (X : Fns E) (C : Comp E) (x : FV E) (l : Lit E) : Transform.paramVal X C x l.expr = .ok l.val := by
  cases l with
  | num n => exact n.paramVal X C x
  | str s => rfl

theorem Fld.paramVal (X : Fns E) (C : Comp E) (x : FV E) (f : Fld) : Transform.paramVal X C x f.expr = negIf X f.neg x := by
  rw [Fld.expr, paramVal_neg]; rfl

theorem Term.paramVal (X : Fns E) (C : Comp E) (x : FV E) (t : Term E) : Transform.paramVal X C x t.expr = t.val X x := by
  cases t with
  | field f => exact f.paramVal X C x
  | left n o f => rw [Term.expr, paramVal_two X C x o.fnameOf_name o.arity, n.paramVal, Fld.paramVal]; rfl
  | right f o n => rw [Term.expr, paramVal_two X C x o.fnameOf_name o.arity, n.paramVal, Fld.paramVal]; rfl
  | both f o g => rw [Term.expr, paramVal_two X C x o.fnameOf_name o.arity, Fld.paramVal, Fld.paramVal]; rfl

mutual
  theorem Fn.paramVal (N : Env E) (X : Fns E) (C : Comp E) (x : FV E) : ∀ f : Fn E, Transform.paramVal X C x (f.expr N) = f.val N X x
    | .pi neg => by rw [Fn.expr, paramVal_neg]; rfl
    | .e neg => by rw [Fn.expr, paramVal_neg]; rfl
    | .one neg n a => by
      rw [Fn.expr, paramVal_neg, paramVal_one X C x n.fnameOf_name n.arity, Arg.paramVal N X C x a, Fn.val]
      cases Arg.val N X x a <;> rfl
    | .two neg n a b => by
      rw [Fn.expr, paramVal_neg, paramVal_two X C x n.fnameOf_name n.arity, Arg.paramVal N X C x a, Arg.paramVal N X C x b, Fn.val]
      cases Arg.val N X x a with
      | ok v => cases Arg.val N X x b <;> rfl
      | _ => rfl
  theorem Arg.paramVal (N : Env E) (X : Fns E) (C : Comp E) (x : FV E) : ∀ a : Arg E, Transform.paramVal X C x (a.expr N) = a.val N X x
    | .fn f => by rw [Arg.expr, Arg.val, Fn.paramVal N X C x f]
    | .term t => by rw [Arg.expr, Arg.val, t.paramVal]
    | .lit l => by rw [Arg.expr, Arg.val, l.paramVal]
end

theorem Side.paramVal (N : Env E) (X : Fns E) (C : Comp E) (x : FV E) (s : Side E) : Transform.paramVal X C x (s.expr N) = s.val N X x := by
  cases s with
  | fn f => exact f.paramVal N X C x
  | bool b u => cases b <;> rfl
  | term t => exact t.paramVal X C x
  | lit l => exact l.paramVal X C x

/-! ### Fields -/

theorem fieldPath_neg (neg : Bool) (e : Expr E) : fieldPath (negE neg e) = fieldPath e := by
  cases neg <;> simp [negE, fieldPath, fieldPaths]

theorem Num.fieldPath (n : Num E) : Transform.fieldPath n.expr = none := by cases n <;> simp [Num.expr, Transform.fieldPath]
theorem Lit.fieldPath (l : Lit E) : Transform.fieldPath l.expr = none := by
  cases l with
  | num n => exact n.fieldPath
  | str s => simp [Lit.expr, Transform.fieldPath]
theorem Fld.fieldPath (f : Fld) : Transform.fieldPath (f.expr : Expr E) = some f.path := by
  rw [Fld.expr, fieldPath_neg]; simp [Transform.fieldPath]

theorem Term.fieldPath (t : Term E) : Transform.fieldPath t.expr = t.fields.head? := by
  cases t <;> simp [Term.expr, Transform.fieldPath, fieldPaths, Fld.fieldPath, Num.fieldPath, Term.fields]

theorem head?_append' {α : Type} (l r : List α) : (l ++ r).head? = l.head?.or r.head? := by cases l <;> simp

mutual
  theorem Fn.fieldPath (N : Env E) : ∀ f : Fn E, Transform.fieldPath (f.expr N) = f.fields.head?
    | .pi neg => by rw [Fn.expr, fieldPath_neg]; simp [Transform.fieldPath, Fn.fields]
    | .e neg => by rw [Fn.expr, fieldPath_neg]; simp [Transform.fieldPath, Fn.fields]
    | .one neg n a => by
      rw [Fn.expr, fieldPath_neg]; simp [Transform.fieldPath, fieldPaths, Fn.fields, Arg.fieldPath N a]
    | .two neg n a b => by
      rw [Fn.expr, fieldPath_neg, Fn.fields, head?_append']
      simp [Transform.fieldPath, fieldPaths, Arg.fieldPath N a, Arg.fieldPath N b]
  theorem Arg.fieldPath (N : Env E) : ∀ a : Arg E, Transform.fieldPath (a.expr N) = a.fields.head?
    | .fn f => by rw [Arg.expr, Arg.fields, Fn.fieldPath N f]
    | .term t => by rw [Arg.expr, Arg.fields, t.fieldPath]
    | .lit l => by rw [Arg.expr, Arg.fields, l.fieldPath]; rfl
end

theorem Side.fieldPath (N : Env E) (s : Side E) : Transform.fieldPath (s.expr N) = s.fields.head? := by
  cases s with
  | fn f => exact f.fieldPath N
  | bool b u => simp [Side.expr, Transform.fieldPath, Side.fields]
  | term t => exact t.fieldPath
  | lit l => exact l.fieldPath

/-! ### Parameters about one field -/

theorem Fld.param (C : Comp E) {p : Path} (f : Fld) (h : f.path = p) : Param C 0 p (f.expr : Expr E) := by
  rw [Fld.expr, h]
  cases f.neg <;> simp [negE, Param, Params]

theorem Num.param (C : Comp E) (p : Path) (n : Num E) : Param C 0 p n.expr := by cases n <;> simp [Num.expr, Param]
theorem Lit.param (C : Comp E) (p : Path) (l : Lit E) : Param C 0 p l.expr := by
  cases l with
  | num n => exact n.param C p
  | str s => simp [Lit.expr, Param]

theorem Term.param (C : Comp E) {p : Path} (t : Term E) (h : ∀ q ∈ t.fields, q = p) : Param C 0 p t.expr := by
  cases t with
  | field f => exact f.param C (h _ (by simp [Term.fields]))
  | left n o f => exact ⟨n.param C p, f.param C (h _ (by simp [Term.fields])), trivial⟩
  | right f o n => exact ⟨f.param C (h _ (by simp [Term.fields])), n.param C p, trivial⟩
  | both f o g => exact ⟨f.param C (h _ (by simp [Term.fields])), g.param C (h _ (by simp [Term.fields])), trivial⟩

theorem negE_param (C : Comp E) {p : Path} {e : Expr E} (neg : Bool) (h : Param C 0 p e) : Param C 0 p (negE neg e) := by
  cases neg
  · exact h
  · exact ⟨h, trivial⟩

mutual
  theorem Fn.param (N : Env E) (C : Comp E) {p : Path} : ∀ f : Fn E, (∀ q ∈ f.fields, q = p) → Param C 0 p (f.expr N)
    | .pi neg, _ => by rw [Fn.expr]; exact negE_param C neg trivial
    | .e neg, _ => by rw [Fn.expr]; exact negE_param C neg trivial
    | .one neg n a, h => by
      rw [Fn.expr]; rw [Fn.fields] at h
      exact negE_param C neg ⟨Arg.param N C a h, trivial⟩
    | .two neg n a b, h => by
      rw [Fn.expr]; rw [Fn.fields] at h
      exact negE_param C neg ⟨Arg.param N C a fun q hq => h q (List.mem_append_left _ hq),
        Arg.param N C b fun q hq => h q (List.mem_append_right _ hq), trivial⟩
  theorem Arg.param (N : Env E) (C : Comp E) {p : Path} : ∀ a : Arg E, (∀ q ∈ a.fields, q = p) → Param C 0 p (a.expr N)
    | .fn f, h => by rw [Arg.expr]; rw [Arg.fields] at h; exact Fn.param N C f h
    | .term t, h => by rw [Arg.expr]; rw [Arg.fields] at h; exact t.param C h
    | .lit l, _ => by rw [Arg.expr]; exact l.param C p
end

theorem Side.param (N : Env E) (C : Comp E) {p : Path} (s : Side E) (h : ∀ q ∈ s.fields, q = p) : Param C 0 p (s.expr N) := by
  cases s with
  | fn f => exact f.param N C h
  | bool b u => simp [Side.expr, Param]
  | term t => exact t.param C h
  | lit l => exact l.param C p

/-! ### Safe calls -/

theorem negE_safe {e : Expr E} (neg : Bool) (h : SafeParam e) : SafeParam (negE neg e) := by
  cases neg
  · exact h
  · show SafeParam (.func (ascii "mathNegate") (.cons e .nil))
    rw [SafeParam, fnameOf_neg]
    exact ⟨by simp, ⟨h, trivial⟩, by simp⟩

theorem Fld.safe (f : Fld) : SafeParam (f.expr : Expr E) := negE_safe _ trivial
theorem Num.safe (n : Num E) : SafeParam n.expr := by cases n <;> simp [Num.expr, SafeParam]
theorem Lit.safe (l : Lit E) : SafeParam l.expr := by
  cases l with
  | num n => exact n.safe
  | str s => simp [Lit.expr, SafeParam]

theorem Arith.ne_other (o : Arith) : o.fn ≠ .other := by cases o <;> simp [Arith.fn]
theorem Arith.div_or (o : Arith) : (o.fn = .div ∨ o.fn = .mod) ↔ (o = .div ∨ o = .mod) := by cases o <;> simp [Arith.fn]

theorem Num.constOf (n : Num E) : ∃ g, n.expr = .value g ∧ constOf g = ⟨n.data, true⟩ := by
  cases n with
  | int neg v => exact ⟨_, rfl, rfl⟩
  | float neg x => exact ⟨_, rfl, rfl⟩

theorem Term.safe (t : Term E) (h : t.Safe) : SafeParam t.expr := by
  cases t with
  | field f => exact f.safe
  | left n o f =>
    rw [Term.expr, SafeParam, o.fnameOf_name, o.arity, o.div_or]
    exact ⟨o.ne_other, ⟨n.safe, f.safe, trivial⟩, fun hc => (hc.elim h.1 h.2).elim⟩
  | right f o n =>
    rw [Term.expr, SafeParam, o.fnameOf_name, o.arity, o.div_or]
    obtain ⟨g, h1, h2⟩ := n.constOf
    exact ⟨o.ne_other, ⟨f.safe, n.safe, trivial⟩, fun hc => ⟨g, by simp [Exprs.nth, h1], by rw [h2]; exact h hc⟩⟩
  | both f o g =>
    rw [Term.expr, SafeParam, o.fnameOf_name, o.arity, o.div_or]
    exact ⟨o.ne_other, ⟨f.safe, g.safe, trivial⟩, fun hc => (hc.elim h.1 h.2).elim⟩

mutual
  theorem Fn.safe (N : Env E) : ∀ f : Fn E, f.Safe → SafeParam (f.expr N)
    | .pi neg, _ => by rw [Fn.expr]; exact negE_safe _ trivial
    | .e neg, _ => by rw [Fn.expr]; exact negE_safe _ trivial
    | .one neg n a, h => by
      rw [Fn.Safe] at h
      rw [Fn.expr]
      apply negE_safe
      rw [SafeParam, n.fnameOf_name, n.arity]
      exact ⟨by cases n <;> simp [One.fn], ⟨Arg.safe N a h, trivial⟩, by cases n <;> simp [One.fn]⟩
    | .two neg n a b, h => by
      rw [Fn.Safe] at h
      rw [Fn.expr]
      apply negE_safe
      rw [SafeParam, n.fnameOf_name, n.arity]
      exact ⟨by cases n <;> simp [Two.fn], ⟨Arg.safe N a h.1, Arg.safe N b h.2, trivial⟩, by cases n <;> simp [Two.fn]⟩
  theorem Arg.safe (N : Env E) : ∀ a : Arg E, a.Safe → SafeParam (a.expr N)
    | .fn f, h => by rw [Arg.expr]; rw [Arg.Safe] at h; exact Fn.safe N f h
    | .term t, h => by rw [Arg.expr]; rw [Arg.Safe] at h; exact t.safe h
    | .lit l, _ => by rw [Arg.expr]; exact l.safe
end

theorem Side.safe (N : Env E) (s : Side E) (h : s.Safe) : SafeParam (s.expr N) := by
  cases s with
  | fn f => exact f.safe N h
  | bool b u => simp [Side.expr, SafeParam]
  | term t => exact t.safe h
  | lit l => exact l.safe

/-! ### Conditions -/

theorem condHolds_eq (X : Fns E) (C : Comp E) (c : Cmp) (l r : Expr E) (x : D) (a b : FV E → Res (FV E))
    (ha : ∀ v, paramVal X C v l = a v) (hb : ∀ v, paramVal X C v r = b v) :
    condHolds X C c l r x = match valOf x with
      | .ok v => holdsB c (a v) (b v)
      | _ => false := by
  unfold condHolds
  cases valOf x with
  | ok v =>
    simp only [Res.bind_ok, ha, hb]
    cases a v with
    | ok y =>
      simp only [Res.bind_ok]
      cases b v <;> rfl
    | _ => cases b v <;> rfl
  | _ => rfl

/-- The test of a comparison, for a comparison whose field is the first of `ps`. -/
theorem truth_cmp (X : Fns E) (C : Comp E) (c : Cmp) (l r : Expr E) (d : D) (ps : List Path) (hp : condPath l r = ps.head?.getD [])
    (a b : FV E → Res (FV E)) (ha : ∀ v, paramVal X C v l = a v) (hb : ∀ v, paramVal X C v r = b v) :
    truth X C (.cmp c l r) d = onField ps d (decide (c = .ne)) fun v => holdsB c (a v) (b v) := by
  rw [truth, hp, onField, readField]
  cases (walk (ps.head?.getD []) d).head? with
  | none => rfl
  | some x => exact condHolds_eq X C c l r x a b ha hb

theorem cmpOf_not_like : ∀ {c0 : Ch} {c1 : Option Ch} {c : Cmp}, cmpOf c0 c1 = some c → c ≠ .like := by
  intro c0 c1 c h
  rintro rfl
  cases c0 <;> rcases c1 with _ | c1 <;> try cases c1
  all_goals simp [cmpOf] at h

theorem pat_param (N : Env E) (C : Comp E) (p : Path) (l : Lit E) (h : (patVal N C l).isSome) : Param C 0 p (patExpr N l) := by
  rw [patVal] at h; rw [patExpr]
  by_cases hp : isPcre (l.text N)
  · rw [if_pos hp] at h ⊢
    rw [Option.isSome_map] at h
    obtain ⟨r, hr⟩ := Option.isSome_iff_exists.1 h
    exact ⟨_, r, rfl, hr⟩
  · rw [if_neg hp] at h ⊢
    rw [Option.isSome_map] at h
    obtain ⟨r, hr⟩ := Option.isSome_iff_exists.1 h
    exact ⟨_, r, rfl, hr⟩

theorem pat_val (N : Env E) (X : Fns E) (C : Comp E) (x : FV E) (l : Lit E) {q : FV E} (h : patVal N C l = some q) :
    paramVal X C x (patExpr N l) = .ok q := by
  rw [patVal] at h; rw [patExpr]
  by_cases hp : isPcre (l.text N)
  · rw [if_pos hp] at h ⊢
    obtain ⟨r, hr, rfl⟩ := Option.map_eq_some_iff.1 h
    rw [paramVal, hr]
  · rw [if_neg hp] at h ⊢
    obtain ⟨r, hr, rfl⟩ := Option.map_eq_some_iff.1 h
    rw [paramVal, hr]

theorem pat_fieldPath (N : Env E) (l : Lit E) : fieldPath (patExpr N l) = none := by
  rw [patExpr]; split <;> simp [fieldPath]

theorem pat_safe (N : Env E) (l : Lit E) : SafeParam (patExpr N l) := by
  rw [patExpr]; split <;> simp [SafeParam]

/-- Path and kind of the condition of an expression, for a condition other than a constant. -/
def Cond.places (c : Cond E) : List (Path × Bool) :=
  match c.base with
  | .bool _ _ => []
  | c => [(c.path, false)]

theorem Cond.path_not (c : Cond E) : (Cond.not c).path = c.path := rfl

theorem Cond.base_path : ∀ c : Cond E, c.base.path = c.path
  | .not c => by rw [Cond.base]; exact Cond.base_path c
  | .bool .. | .regex .. | .regexFn .. | .exist _ | .null .. | .missing .. | .cmp .. => rfl

theorem condPath_null (e : Expr E) : condPath e (.value (.json .null)) = (fieldPath e).getD [] := by
  simp [condPath, fieldPath]

theorem condPath_self (e : Expr E) : condPath e e = (fieldPath e).getD [] := by
  rw [condPath]; cases fieldPath e <;> rfl

/-- What is needed of the expression of a condition. -/
structure Good (N : Env E) (X : Fns E) (C : Comp E) (d : D) (e : Expr E) (t : Bool) (L : List (Path × Bool)) : Prop where
  frag : Frag C 0 e
  safe : SafeE e
  lf : LoopFree e
  tr : truth X C e d = t
  cs : conds e = L

theorem Cond.good (N : Env E) (X : Fns E) (C : Comp E) (d : D) : ∀ c : Cond E, c.valid N → c.Simple N C →
    Good N X C d (c.expr N) (c.truth N X C (fun _ => false) d) c.places
  | .not c, hv, hs => by
    obtain ⟨h1, h2, h3, h4, h5⟩ := Cond.good N X C d c hv hs
    refine ⟨h1, h2, h3, ?_, ?_⟩
    · rw [Cond.expr, Transform.truth, h4]; rfl
    · rw [Cond.expr, conds, h5]; rfl
  | .bool b u, _, _ => by
    cases b
    · exact ⟨by simp [Cond.expr, Frag], by simp [Cond.expr, SafeE], by simp [Cond.expr, LoopFree], by simp [Cond.expr, Transform.truth, Cond.truth],
        by simp [Cond.expr, conds, Cond.places, Cond.base]⟩
    · exact ⟨by simp [Cond.expr, Frag], by simp [Cond.expr, SafeE], by simp [Cond.expr, LoopFree], by simp [Cond.expr, Transform.truth, Cond.truth],
        by simp [Cond.expr, conds, Cond.places, Cond.base]⟩
  | .regex a l, _, hs => by
    obtain ⟨ho, hsa, hp⟩ := hs
    obtain ⟨q, hq⟩ := Option.isSome_iff_exists.1 hp
    have hpath : condPath (a.expr N) (patExpr N l) = a.fields.head?.getD [] := by
      rw [condPath, pat_fieldPath, Arg.fieldPath]; cases a.fields.head? <;> rfl
    refine ⟨?_, ⟨a.safe N hsa, pat_safe N l⟩, trivial, ?_, ?_⟩
    · rw [Cond.expr, Frag, hpath]
      exact ⟨a.param N C ho, pat_param N C _ l hp⟩
    · rw [Cond.expr, truth_cmp X C .like _ _ d a.fields hpath (fun v => a.val N X v) (fun _ => .ok q) (fun v => a.paramVal N X C v)
        (fun v => pat_val N X C v l hq), Cond.truth, hq]
      rfl
    · rw [Cond.expr, conds, hpath]; rfl
  | .regexFn a f, hv, _ => by simp [Cond.valid] at hv
  | .exist f, _, _ => by
    have hpath : condPath (f.expr : Expr E) f.expr = f.path := by rw [condPath_self, Fld.fieldPath]; rfl
    refine ⟨?_, f.safe, trivial, ?_, ?_⟩
    · rw [Cond.expr, Frag, hpath]; exact f.param C rfl
    · rw [Cond.expr, Transform.truth, hpath]; rfl
    · rw [Cond.expr, conds, hpath]; rfl
  | .null s neg, _, hs => by
    have hpath : condPath (s.expr N) (.value (.json .null)) = s.fields.head?.getD [] := by
      rw [condPath_null, Side.fieldPath]
    have htr := truth_cmp X C .eq _ _ d s.fields hpath (fun v => s.val N X v) (fun _ => .ok ⟨.null, true⟩) (fun v => s.paramVal N X C v)
        (fun v => rfl)
    have hf : Frag C 0 (.cmp .eq (s.expr N) (.value (.json .null))) := by
      rw [Frag, hpath]; exact ⟨s.param N C hs.1, trivial⟩
    cases neg
    · refine ⟨hf, ⟨s.safe N hs.2, trivial⟩, trivial, ?_, ?_⟩
      · rw [Cond.expr, if_neg (by simp), htr, Cond.truth, Bool.false_xor]; rfl
      · rw [Cond.expr, if_neg (by simp), conds, hpath]; rfl
    · refine ⟨hf, ⟨s.safe N hs.2, trivial⟩, trivial, ?_, ?_⟩
      · rw [Cond.expr, if_pos rfl, Transform.truth, htr, Cond.truth, Bool.true_xor]; rfl
      · rw [Cond.expr, if_pos rfl, conds, conds, hpath]; rfl
  | .missing s neg, _, hs => by
    have hpath : condPath (s.expr N) (s.expr N) = s.fields.head?.getD [] := by rw [condPath_self, Side.fieldPath]
    have hf : Param C 0 (s.fields.head?.getD []) (s.expr N) := s.param N C hs.1
    cases neg
    · refine ⟨?_, s.safe N hs.2, trivial, ?_, ?_⟩
      · rw [Cond.expr, if_neg (by simp), Frag, hpath]; exact hf
      · rw [Cond.expr, if_neg (by simp), Transform.truth, hpath, Cond.truth, readField]; simp
      · rw [Cond.expr, if_neg (by simp), conds, hpath]; rfl
    · refine ⟨?_, s.safe N hs.2, trivial, ?_, ?_⟩
      · rw [Cond.expr, if_pos rfl, Frag, hpath]; exact hf
      · rw [Cond.expr, if_pos rfl, Transform.truth, hpath, Cond.truth, readField]; simp
      · rw [Cond.expr, if_pos rfl, conds, hpath]; rfl
  | .cmp l c0 c1 r, hv, hs => by
    have hc : (cmpOf c0 c1).isSome := by
      rw [Cond.valid, Bool.and_eq_true] at hv; exact hv.2
    obtain ⟨c, hc⟩ := Option.isSome_iff_exists.1 hc
    have hpath : condPath (l.expr N) (r.expr N) = (l.fields ++ r.fields).head?.getD [] := by
      rw [condPath, Side.fieldPath, Side.fieldPath, head?_append']
    obtain ⟨ho, hl, hr⟩ := hs
    refine ⟨?_, ?_, ?_, ?_, ?_⟩
    · rw [Cond.expr, hc]
      show Frag C 0 (.cmp c _ _)
      rw [Frag, hpath]
      exact ⟨l.param N C fun q hq => ho q (List.mem_append_left _ hq), r.param N C fun q hq => ho q (List.mem_append_right _ hq)⟩
    · rw [Cond.expr, hc]; exact ⟨l.safe N hl, r.safe N hr⟩
    · rw [Cond.expr, hc]; trivial
    · rw [Cond.expr, hc, Cond.truth, hc]
      exact truth_cmp X C c _ _ d _ hpath (fun v => l.val N X v) (fun v => r.val N X v) (fun v => l.paramVal N X C v)
        (fun v => r.paramVal N X C v)
    · rw [Cond.expr, hc]
      show conds (.cmp c _ _) = _
      rw [conds, hpath]; rfl

/-! ### Filters -/

mutual
  theorem Filt.good (N : Env E) (X : Fns E) (C : Comp E) (d : D) : ∀ f : Filt E, f.valid N → (∀ c ∈ f.conds, c.Simple N C) →
      Frags C 0 (f.exprs N) ∧ SafeEs (f.exprs N) ∧ LoopFrees (f.exprs N) ∧ truthAny X C (f.exprs N) d = f.truth N X C (fun _ => false) d ∧
        condsAll (f.exprs N) = f.conds.flatMap Cond.places
    | .one c, hv, hs => by
      rw [Filt.valid] at hv; rw [Filt.conds] at hs
      obtain ⟨h1, h2, h3, h4, h5⟩ := Conj.good N X C d c hv hs
      rw [Filt.exprs, Filt.truth, Filt.conds]
      refine ⟨h1, ⟨h2, trivial⟩, ⟨h3, trivial⟩, ?_, ?_⟩
      · rw [truthAny, truthAny, truth, h4, Bool.or_false]
      · rw [condsAll, condsAll, conds, h5, List.append_nil]
    | .or c r, hv, hs => by
      rw [Filt.valid, Bool.and_eq_true] at hv; rw [Filt.conds] at hs
      obtain ⟨h1, h2, h3, h4, h5⟩ := Conj.good N X C d c hv.1 fun x hx => hs x (List.mem_append_left _ hx)
      obtain ⟨g1, g2, g3, g4, g5⟩ := Filt.good N X C d r hv.2 fun x hx => hs x (List.mem_append_right _ hx)
      rw [Filt.exprs, Filt.truth, Filt.conds]
      refine ⟨?_, ⟨h2, g2⟩, ⟨h3, g3⟩, ?_, ?_⟩
      · cases hr : Filt.exprs N r with
        | nil => rw [hr] at g1; simp [Frags] at g1
        | cons e es => rw [hr] at g1; exact ⟨h1, g1⟩
      · rw [truthAny, truth, h4, g4]
      · rw [condsAll, conds, h5, g5, List.flatMap_append]
  theorem Conj.good (N : Env E) (X : Fns E) (C : Comp E) (d : D) : ∀ f : Conj E, f.valid N → (∀ c ∈ f.conds, c.Simple N C) →
      Frags C 0 (f.exprs N) ∧ SafeEs (f.exprs N) ∧ LoopFrees (f.exprs N) ∧ truthAll X C (f.exprs N) d = f.truth N X C (fun _ => false) d ∧
        condsAll (f.exprs N) = f.conds.flatMap Cond.places
    | .one c, hv, hs => by
      rw [Conj.valid] at hv; rw [Conj.conds] at hs
      obtain ⟨h1, h2, h3, h4, h5⟩ := Item.good N X C d c hv hs
      rw [Conj.exprs, Conj.truth, Conj.conds]
      refine ⟨h1, ⟨h2, trivial⟩, ⟨h3, trivial⟩, ?_, ?_⟩
      · rw [truthAll, truthAll, h4, Bool.and_true]
      · rw [condsAll, condsAll, h5, List.append_nil]
    | .and c r, hv, hs => by
      rw [Conj.valid, Bool.and_eq_true] at hv; rw [Conj.conds] at hs
      obtain ⟨h1, h2, h3, h4, h5⟩ := Item.good N X C d c hv.1 fun x hx => hs x (List.mem_append_left _ hx)
      obtain ⟨g1, g2, g3, g4, g5⟩ := Conj.good N X C d r hv.2 fun x hx => hs x (List.mem_append_right _ hx)
      rw [Conj.exprs, Conj.truth, Conj.conds]
      refine ⟨?_, ⟨h2, g2⟩, ⟨h3, g3⟩, ?_, ?_⟩
      · cases hr : Conj.exprs N r with
        | nil => rw [hr] at g1; simp [Frags] at g1
        | cons e es => rw [hr] at g1; exact ⟨h1, g1⟩
      · rw [truthAll, h4, g4]
      · rw [condsAll, h5, g5, List.flatMap_append]
  theorem Item.good (N : Env E) (X : Fns E) (C : Comp E) (d : D) : ∀ f : Item E, f.valid N → (∀ c ∈ f.conds, c.Simple N C) →
      Good N X C d (f.expr N) (f.truth N X C (fun _ => false) d) (f.conds.flatMap Cond.places)
    | .paren f, hv, hs => by
      rw [Item.valid] at hv; rw [Item.conds] at hs
      obtain ⟨h1, h2, h3, h4, h5⟩ := Filt.good N X C d f hv hs
      rw [Item.expr, Item.truth, Item.conds]
      exact ⟨h1, h2, h3, by rw [truth, h4], by rw [conds, h5]⟩
    | .cond c, hv, hs => by
      rw [Item.valid] at hv; rw [Item.conds] at hs
      have := Cond.good N X C d c hv (hs c (List.mem_singleton.2 rfl))
      rw [Item.expr, Item.truth, Item.conds]
      simpa using this
end

theorem places_mem (f : Filt E) {p : Path} {b : Bool} (h : (p, b) ∈ f.conds.flatMap Cond.places) : b = false ∧ p ∈ f.paths := by
  obtain ⟨c, hc, h⟩ := List.mem_flatMap.1 h
  have key : ∀ q, Cond.places c = [(q, false)] → (match c.base with
      | .bool _ _ => none
      | c => some c.path) = some q → b = false ∧ p ∈ f.paths := by
    intro q h1 h2
    rw [h1, List.mem_singleton] at h
    obtain ⟨rfl, rfl⟩ := Prod.mk.inj h
    exact ⟨rfl, List.mem_filterMap.2 ⟨c, hc, h2⟩⟩
  unfold Cond.places at h key
  cases hb : c.base with
  | bool b u => rw [hb] at h; cases h
  | _ => rw [hb] at key; exact key _ rfl rfl

theorem seen_regular {f : Filt E} {d : D} (h : Seen f.paths d) : RegularAt (f.conds.flatMap Cond.places) d := by
  refine ⟨fun p hp x hx he => (h.arr p (places_mem f hp).2 x hx he).elim, fun p hp x hx he k p' b hc => ?_, fun q hq => ?_⟩
  · exact h.obj p (places_mem f hp).2 x hx he k p' (places_mem f hc).2
  · exact absurd (places_mem f hq).1 (by simp)

/-- Two meanings of the constants that agree on those that occur. -/
theorem Cond.truth_congr (N : Env E) (X : Fns E) (C : Comp E) (d : D) (k k' : Bool → Bool) : ∀ c : Cond E,
    (∀ b u, c.base = .bool b u → k b = k' b) → c.truth N X C k d = c.truth N X C k' d
  | .not c, h => by rw [Cond.truth, Cond.truth, Cond.truth_congr N X C d k k' c h]
  | .bool b u, h => by rw [Cond.truth, Cond.truth]; exact h b u rfl
  | .regex .., _ | .regexFn .., _ | .exist _, _ | .null .., _ | .missing .., _ | .cmp .., _ => rfl

mutual
  theorem Filt.truth_congr (N : Env E) (X : Fns E) (C : Comp E) (d : D) (k k' : Bool → Bool) : ∀ f : Filt E,
      (∀ c ∈ f.conds, ∀ b u, c.base = .bool b u → k b = k' b) → f.truth N X C k d = f.truth N X C k' d
    | .one c, h => by
      rw [Filt.conds] at h; rw [Filt.truth, Filt.truth, Conj.truth_congr N X C d k k' c h]
    | .or c r, h => by
      rw [Filt.conds] at h
      rw [Filt.truth, Filt.truth, Conj.truth_congr N X C d k k' c fun x hx => h x (List.mem_append_left _ hx),
        Filt.truth_congr N X C d k k' r fun x hx => h x (List.mem_append_right _ hx)]
  theorem Conj.truth_congr (N : Env E) (X : Fns E) (C : Comp E) (d : D) (k k' : Bool → Bool) : ∀ f : Conj E,
      (∀ c ∈ f.conds, ∀ b u, c.base = .bool b u → k b = k' b) → f.truth N X C k d = f.truth N X C k' d
    | .one c, h => by
      rw [Conj.conds] at h; rw [Conj.truth, Conj.truth, Item.truth_congr N X C d k k' c h]
    | .and c r, h => by
      rw [Conj.conds] at h
      rw [Conj.truth, Conj.truth, Item.truth_congr N X C d k k' c fun x hx => h x (List.mem_append_left _ hx),
        Conj.truth_congr N X C d k k' r fun x hx => h x (List.mem_append_right _ hx)]
  theorem Item.truth_congr (N : Env E) (X : Fns E) (C : Comp E) (d : D) (k k' : Bool → Bool) : ∀ f : Item E,
      (∀ c ∈ f.conds, ∀ b u, c.base = .bool b u → k b = k' b) → f.truth N X C k d = f.truth N X C k' d
    | .paren f, h => by
      rw [Item.conds] at h; rw [Item.truth, Item.truth, Filt.truth_congr N X C d k k' f h]
    | .cond c, h => by
      rw [Item.conds] at h
      rw [Item.truth, Item.truth, Cond.truth_congr N X C d k k' c (h c (List.mem_singleton.2 rfl))]
end

theorem const_mem {f : Filt E} {c : Cond E} {b u : Bool} (hc : c ∈ f.conds) (h : c.base = .bool b u) : b ∈ f.consts :=
  List.mem_filterMap.2 ⟨c, hc, by rw [h]⟩

/-! ### C50: the expression of a filter -/

/-- C50: every filter gives its expression, or an error exactly if it is not valid; there is no panic. -/
theorem C50_output (N : Env E) (f : Filt E) : f.build.out N = .ok (if f.valid N then some (f.expr N) else none) := out_build N f

/-- Environment and filters for examples. -/
def demoEnv : Env demoExt := ⟨(3 : Int), (2 : Int), fun _ => [], fun s => s = ascii "2019", true⟩

/-- The field `a` or `b`. -/
def fld (c : Nat) : Fld := ⟨false, [⟨.ident [c], []⟩]⟩

/-- `a == 1 AND (NOT EXISTS(b) OR b - 1 <> 2 OR FALSE)` -/
def demoFilt : Filt demoExt :=
  .one (.and (.cond (.cmp (.term (.field (fld 97))) .eq (some .eq) (.lit (.num (.int false 1#64)))))
    (.one (.paren (.or (.one (.cond (.not (.exist (fld 98)))))
      (.or (.one (.cond (.cmp (.term (.right (fld 98) .sub (.int false 1#64))) .lt (some .gt) (.lit (.num (.int false 2#64))))))
        (.one (.one (.cond (.bool false true)))))))))

/-- `DATE(x) >< a`: the operator is not in the table, and `x` is not a date. -/
def badFilt : Filt demoExt :=
  .one (.one (.cond (.cmp (.fn (.one false .date (.lit (.str [120])))) .gt (some .lt) (.term (.field (fld 97))))))

example : demoFilt.build.out demoEnv = .ok (some (demoFilt.expr demoEnv)) := C50_output demoEnv demoFilt
example : demoFilt.valid demoEnv = true ∧ badFilt.valid demoEnv = false := by decide

/-- The matcher of a filter that is not valid is an error. -/
theorem C50_invalid (N : Env E) (C : Comp E) (parse : List Nat → Option (FilterExpression E)) (text : List Nat) (f : Filt E)
    (hp : parse text = some f.build) (hv : f.valid N = false) : getMatcher N C parse text = .ok none := by
  rw [getMatcher, newParser]
  by_cases ht : text = []
  · rw [if_pos ht]
  · rw [if_neg ht, hp]
    simp only [C50_output, hv]
    rfl

example (C : Comp demoExt) : getMatcher demoEnv C (fun _ => some badFilt.build) [120] = .ok none :=
  C50_invalid demoEnv C _ _ badFilt rfl (by decide)

/-! ### C51: which documents match -/

/-- The matcher of a filter is true on the documents on which the filter is true, if both constants count as false. -/
theorem C51_constants_partial (N : Env E) (X : Fns E) (C : Comp E) (parse : List Nat → Option (FilterExpression E)) (text : List Nat) (f : Filt E)
    (ht : text ≠ []) (hp : parse text = some f.build) (hv : f.valid N) (hs : ∀ c ∈ f.conds, c.Simple N C)
    {data : List Nat} {d : D} (hd : Begins data d) (hseen : Seen f.paths d) :
    ∃ df, getMatcher N C parse text = .ok (some df) ∧ ∀ m, Ready df m →
      ∃ m', run X df m data = .ok (some (f.truth N X C (fun _ => false) d), m') := by
  obtain ⟨h1, h2, h3, h4, h5⟩ := Filt.good N X C d f hv hs
  have hone : ∀ {P : Expr E → Prop}, P (f.expr N) → ∀ x ∈ [f.expr N], P x := by
    intro P h x hx; rw [List.mem_singleton] at hx; rw [hx]; exact h
  have hreg : RegularAt (condsOf [f.expr N]) d := by
    rw [condsOf, List.flatMap_singleton, Filt.expr, conds, h5]
    exact seen_regular hseen
  obtain ⟨df, g1, g2⟩ := C22_match_partial X C 0 (es := [f.expr N]) (g := f.expr N) (gs := []) rfl (hone h1) (hone h2) (hone h3) hd hreg
  refine ⟨df, ?_, fun m hm => ?_⟩
  · rw [getMatcher, newParser, if_neg ht, hp]
    simp only [C50_output, hv, if_true, andThen_some, g1, Res.bind_ok]
  · obtain ⟨m', hm'⟩ := g2 m hm
    refine ⟨m', ?_⟩
    rw [hm', List.any_cons, List.any_nil, Bool.or_false, Filt.expr, truth, h4]

/-- C51 for filters with one field in each condition and without the constant `TRUE`, on documents in which no condition reads an
empty array, nor an empty object below which there are other conditions.  (Missing: the other filters and documents.  With
`TRUE` it is false, see `C51_negation`; on the other documents it is false, see `Transform.C22_negation`.) -/
theorem C51_match_partial (N : Env E) (X : Fns E) (C : Comp E) (parse : List Nat → Option (FilterExpression E)) (text : List Nat) (f : Filt E)
    (ht : text ≠ []) (hp : parse text = some f.build) (hv : f.valid N) (hs : ∀ c ∈ f.conds, c.Simple N C) (hc : true ∉ f.consts)
    {data : List Nat} {d : D} (hd : Begins data d) (hseen : Seen f.paths d) :
    ∃ df, getMatcher N C parse text = .ok (some df) ∧ ∀ m, Ready df m →
      ∃ m', run X df m data = .ok (some (f.truth N X C id d), m') := by
  have : f.truth N X C id d = f.truth N X C (fun _ => false) d := by
    apply Filt.truth_congr
    intro c hcm b u hb
    cases b
    · rfl
    · exact absurd (const_mem hcm hb) hc
  rw [this]
  exact C51_constants_partial N X C parse text f ht hp hv hs hd hseen

theorem demoFilt_simple : ∀ c ∈ demoFilt.conds, c.Simple demoEnv demoComp := by
  intro c hc
  simp only [demoFilt, Filt.conds, Conj.conds, Item.conds, List.mem_append, List.mem_singleton] at hc
  rcases hc with rfl | rfl | rfl | rfl <;>
    simp [Cond.Simple, OneField, Side.Safe, Term.Safe, Side.fields, Term.fields]

/-- Checking `Seen` by computation (for examples). -/
theorem seen_of_check {ps : List Path} {d : D} (h : regularB (ps.map (·, false)) d = true) : Seen ps d := by
  obtain ⟨h1, h2, _⟩ := regular_of_check h
  have hm : ∀ {p}, p ∈ ps → (p, false) ∈ ps.map (·, false) := fun hp => List.mem_map.2 ⟨_, hp, rfl⟩
  refine ⟨fun p hp x hx he => ?_, fun p hp x hx he k q hc => h2 p (hm hp) x hx he k q false (hm hc)⟩
  obtain ⟨_, _, h⟩ := List.mem_map.1 (h1 p (hm hp) x hx he)
  cases h

example : ∃ df, getMatcher demoEnv demoComp (fun _ => some demoFilt.build) [120] = .ok (some df) ∧
    ∀ m, Ready df m → ∃ m', run demoFns df m demoDoc = .ok (some (demoFilt.truth demoEnv demoFns demoComp id docA1), m') :=
  C51_match_partial demoEnv demoFns demoComp _ _ demoFilt (by simp) rfl (by decide) demoFilt_simple (by decide) docA1_text
    (seen_of_check (by decide))

example : demoFilt.truth demoEnv demoFns demoComp id docA1 = true := by decide +kernel

/-- `TRUE` -/
def trueFilt : Filt demoExt := .one (.one (.cond (.bool true true)))

example : ∃ df, getMatcher demoEnv demoComp (fun _ => some trueFilt.build) [120] = .ok (some df) ∧
    ∀ m, Ready df m → ∃ m', run demoFns df m demoDoc = .ok (some false, m') :=
  C51_constants_partial demoEnv demoFns demoComp _ _ trueFilt (by simp) rfl (by decide)
    (by simp [trueFilt, Filt.conds, Conj.conds, Item.conds, Cond.Simple]) docA1_text (seen_of_check (by decide))

/-- C51 as stated is false: the filter `TRUE` matches nothing (`OutputExpression` puts the constant into an `OR` of an `AND`, and
`transformOne` has no operation that decides it). -/
theorem C51_negation : ¬ ∀ (E : Ext) (N : Env E) (X : Fns E) (C : Comp E) (parse : List Nat → Option (FilterExpression E)) (text : List Nat)
    (f : Filt E) (data : List Nat) (d : D), text ≠ [] → parse text = some f.build → f.valid N → (∀ c ∈ f.conds, c.Simple N C) →
    Match.IsText data d → Seen f.paths d → ∃ df, getMatcher N C parse text = .ok (some df) ∧ ∀ m, Ready df m →
      ∃ m', run X df m data = .ok (some (f.truth N X C id d), m') := by
  intro h
  have hs : ∀ c ∈ trueFilt.conds, c.Simple demoEnv demoComp := by
    simp [trueFilt, Filt.conds, Conj.conds, Item.conds, Cond.Simple]
  obtain ⟨df, h1, h2⟩ := h demoExt demoEnv demoFns demoComp (fun _ => some trueFilt.build) [120] trueFilt demoDoc docA1 (by simp) rfl (by decide)
    hs docA1_exact (seen_of_check (by decide))
  obtain ⟨df', g1, g2⟩ := C51_constants_partial demoEnv demoFns demoComp (fun _ => some trueFilt.build) [120] trueFilt (by simp) rfl (by decide)
    hs docA1_text (seen_of_check (by decide))
  obtain rfl : df = df' := by
    rw [g1] at h1
    exact (Option.some.inj (Res.ok.inj h1)).symm
  obtain ⟨m1, h3⟩ := h2 (newMatcher df) ⟨rfl, rfl⟩
  obtain ⟨m2, g3⟩ := g2 (newMatcher df) ⟨rfl, rfl⟩
  rw [g3] at h3
  have : (false, m2) = (true, m1) := by
    have := Res.ok.inj h3
    simpa [trueFilt, Filt.truth, Conj.truth, Item.truth, Cond.truth] using this
  cases this

/-- So the filter `NOT TRUE` matches everything. -/
theorem C51_not_true (N : Env E) (X : Fns E) (C : Comp E) (parse : List Nat → Option (FilterExpression E)) (text : List Nat) (u : Bool)
    (ht : text ≠ []) (hp : parse text = some (Filt.one (.one (.cond (.not (.bool true u))))).build) {data : List Nat} {d : D}
    (hd : Begins data d) : ∃ df, getMatcher N C parse text = .ok (some df) ∧ ∀ m, Ready df m →
      ∃ m', run X df m data = .ok (some true, m') :=
  C51_constants_partial N X C parse text (.one (.one (.cond (.not (.bool true u))))) ht hp (by simp [Filt.valid, Conj.valid, Item.valid, Cond.valid])
    (by simp [Filt.conds, Conj.conds, Item.conds, Cond.Simple]) hd
    ⟨by simp [Filt.paths, Filt.conds, Conj.conds, Item.conds, Cond.base], by simp [Filt.paths, Filt.conds, Conj.conds, Item.conds, Cond.base]⟩

/-! ### C52: operators and names -/

/-- C52: the characters of an operator give the comparison of the table, or an error. -/
theorem C52_operators (c0 : Ch) (c1 : Option Ch) : FECompareOp.out ⟨some c0.build, c1.map Ch.build⟩ = cmpOf c0 c1 := Ch.out_build c0 c1

/-- C52: arithmetic operators and function names stand for their functions: the name that the parser puts into the expression is
the one that the matcher looks up (`Term.val`, `Fn.val` apply the function meant). -/
theorem C52_values (N : Env E) (X : Fns E) (C : Comp E) (x : FV E) (s : Side E) : paramVal X C x (s.expr N) = s.val N X x := s.paramVal N X C x

example : FECompareOp.out ⟨some Ch.bang.build, some Ch.eq.build⟩ = some .ne := C52_operators .bang (some .eq)
example : cmpOf .lt (some .gt) = some .ne ∧ cmpOf .gt (some .eq) = some .ge ∧ cmpOf .bang none = none ∧ cmpOf .eq (some .gt) = none := by decide

/-- `b - 1` for `b` = 7. -/
example (N : Env demoExt) (C : Comp demoExt) :
    paramVal demoFns C ⟨.int 7#64, true⟩ ((Side.term (.right (fld 98) .sub (.int false 1#64))).expr N) = .ok ⟨.int 6#64, false⟩ := by
  rw [C52_values]; rfl

end Verif.Filter
