import Verif.Filter.Theorems
import Verif.Transform.MultiWhole

/-!
# C51 for filters whose conditions compare several fields

As in `Filter/Theorems.lean`, with conditions such as `a.b < a.c` or `a + b == c` that mention different fields.
-/

namespace Verif.Filter
open Verif.FastVal Verif.Expr Verif.Transform
open Verif.Match (valOf Ready run newMatcher Begins Divisor demoDoc demoFns missingV)
open Verif.Token (D Ms Es)

variable {E : Ext}

/-! ### Specification: the meaning of filters -/

/-- The value of a field of the document; of a key that is repeated the last value counts. -/
def fieldIn (d : D) (p : Path) : Res (FV E) :=
  match (walk p d).getLast? with
  | some x => valOf x
  | none => .ok missingV

/-- The value of a term, given the values of fields. -/
def Term.val2 (X : Fns E) (env : Path → Res (FV E)) : Term E → Res (FV E)
  | .field f => env f.path >>= negIf X f.neg
  | .left n o f => env f.path >>= negIf X f.neg >>= fun b => applyFn X o.fn [⟨n.data, true⟩, b]
  | .right f o n => env f.path >>= negIf X f.neg >>= fun a => applyFn X o.fn [a, ⟨n.data, true⟩]
  | .both f o g => env f.path >>= negIf X f.neg >>= fun a => env g.path >>= negIf X g.neg >>= fun b => applyFn X o.fn [a, b]

mutual
  def Fn.val2 (N : Env E) (X : Fns E) (env : Path → Res (FV E)) : Fn E → Res (FV E)
    | .pi neg => negIf X neg ⟨.float N.pi, true⟩
    | .e neg => negIf X neg ⟨.float N.e, true⟩
    | .one neg n a => Arg.val2 N X env a >>= fun v => applyFn X n.fn [v] >>= negIf X neg
    | .two neg n a b => Arg.val2 N X env a >>= fun v => Arg.val2 N X env b >>= fun w => applyFn X n.fn [v, w] >>= negIf X neg
  def Arg.val2 (N : Env E) (X : Fns E) (env : Path → Res (FV E)) : Arg E → Res (FV E)
    | .fn f => Fn.val2 N X env f
    | .term t => t.val2 X env
    | .lit l => .ok l.val
end

def Side.val2 (N : Env E) (X : Fns E) (env : Path → Res (FV E)) : Side E → Res (FV E)
  | .fn f => f.val2 N X env
  | .bool b _ => .ok ⟨if b then .tru else .fals, true⟩
  | .term t => t.val2 X env
  | .lit l => .ok l.val

/-- Whether a list contains different fields. -/
def differ : List Path → Bool
  | [] => false
  | p :: ps => ps.any (fun q => decide (q ≠ p))

/-- The field a side consists of. -/
def Side.bare : Side E → Option Path
  | .term (.field ⟨false, segs⟩) => some (Fld.path ⟨false, segs⟩)
  | _ => none

/-- The side is a field that the document does not have. -/
def Side.gone (s : Side E) (d : D) : Bool :=
  match s.bare with
  | some p => (walk p d).isEmpty
  | none => false

/-- Comparison of several fields. -/
def Side.holds2 (N : Env E) (X : Fns E) (d : D) (c : Cmp) (l r : Side E) : Bool :=
  !l.gone d && !r.gone d && holdsB c (l.val2 N X (fieldIn d)) (r.val2 N X (fieldIn d))

/-- As `Cond.truth`, for conditions about several fields as well: a comparison with a field that is missing is false, `!=` is the
negation of `=`, other missing fields are computed with as missing values. -/
def Cond.truth2 (N : Env E) (X : Fns E) (C : Comp E) (k : Bool → Bool) (d : D) : Cond E → Bool
  | .not c => !Cond.truth2 N X C k d c
  | .regex a l => if differ a.fields then
      (match patVal N C l with
        | some p => holdsB .like (a.val2 N X (fieldIn d)) (.ok p)
        | none => false)
    else Cond.truth N X C k d (.regex a l)
  | .null s neg => if differ s.fields then neg ^^ holdsB .eq (s.val2 N X (fieldIn d)) (.ok ⟨.null, true⟩) else Cond.truth N X C k d (.null s neg)
  | .cmp l c0 c1 r => if differ (l.fields ++ r.fields) then
      (match cmpOf c0 c1 with
        | some .ne => !Side.holds2 N X d .eq l r
        | some c => Side.holds2 N X d c l r
        | none => false)
    else Cond.truth N X C k d (.cmp l c0 c1 r)
  | c => Cond.truth N X C k d c

mutual
  def Filt.truth2 (N : Env E) (X : Fns E) (C : Comp E) (k : Bool → Bool) (d : D) : Filt E → Bool
    | .one c => Conj.truth2 N X C k d c
    | .or c r => Conj.truth2 N X C k d c || Filt.truth2 N X C k d r
  def Conj.truth2 (N : Env E) (X : Fns E) (C : Comp E) (k : Bool → Bool) (d : D) : Conj E → Bool
    | .one i => Item.truth2 N X C k d i
    | .and i r => Item.truth2 N X C k d i && Conj.truth2 N X C k d r
  def Item.truth2 (N : Env E) (X : Fns E) (C : Comp E) (k : Bool → Bool) (d : D) : Item E → Bool
    | .paren f => Filt.truth2 N X C k d f
    | .cond c => c.truth2 N X C k d
end

/-! ### Which filters and documents are covered -/

/-- Of several fields none contains all the others. -/
def Apart (ps : List Path) : Prop := differ ps = true → ∀ p ∈ ps, ∃ p' ∈ ps, ¬ p <+: p'

/-- As `Cond.Simple`, with several fields in patterns, comparisons and tests for null. -/
def Cond.Simple2 (N : Env E) (C : Comp E) : Cond E → Prop
  | .not c => c.Simple2 N C
  | .regex a l => Apart a.fields ∧ a.Safe ∧ (patVal N C l).isSome
  | .null s _ => Apart s.fields ∧ s.Safe
  | .cmp l _ _ r => Apart (l.fields ++ r.fields) ∧ l.Safe ∧ r.Safe
  | c => c.Simple N C

/-- The fields of a condition that the matcher reads. -/
def Cond.paths2 : Cond E → List Path
  | .not c => c.paths2
  | .bool _ _ => []
  | .regex a l => if differ a.fields then a.fields else [Cond.path (.regex a l)]
  | .null s n => if differ s.fields then s.fields else [Cond.path (.null s n)]
  | .cmp l c0 c1 r => if differ (l.fields ++ r.fields) then l.fields ++ r.fields else [Cond.path (.cmp l c0 c1 r)]
  | c => [c.path]

/-- There is one place in the document below which all fields of the comparison are (or, for a comparison of two fields, at most one). -/
def Together (bare : Bool) (ps : List Path) (d : D) : Prop :=
  (∃ x, walk (baseOf ps) d = [x] ∧ ¬ EmptyArr x) ∨ (bare = true ∧ (walk (baseOf ps) d).length ≤ 1)

def Cond.Together (d : D) : Cond E → Prop
  | .not c => c.Together d
  | .regex a _ => differ a.fields = true → Filter.Together false a.fields d
  | .null s _ => differ s.fields = true → Filter.Together false s.fields d
  | .cmp l _ _ r => differ (l.fields ++ r.fields) = true → Filter.Together (l.bare.isSome && r.bare.isSome) (l.fields ++ r.fields) d
  | _ => True

/-! ### The expressions -/

theorem several_eq (l r : Expr E) : several l r = differ (paths l ++ paths r) := rfl

theorem Num.paths (n : Num E) : Transform.paths n.expr = [] := by cases n <;> simp [Num.expr, Transform.paths]
theorem Lit.paths (l : Lit E) : Transform.paths l.expr = [] := by
  cases l with
  | num n => exact n.paths
  | str s => simp [Lit.expr, Transform.paths]
theorem paths_neg (neg : Bool) (e : Expr E) : paths (negE neg e) = paths e := by cases neg <;> simp [negE, paths, pathsAll]
theorem Fld.paths (f : Fld) : Transform.paths (f.expr : Expr E) = [f.path] := by
  rw [Fld.expr, paths_neg]; simp [Transform.paths]
theorem Term.paths (t : Term E) : Transform.paths t.expr = t.fields := by
  cases t <;> simp [Term.expr, Transform.paths, pathsAll, Fld.paths, Num.paths, Term.fields]
mutual
  theorem Fn.paths (N : Env E) : ∀ f : Fn E, Transform.paths (f.expr N) = f.fields
    | .pi neg => by rw [Fn.expr, paths_neg]; simp [Transform.paths, Fn.fields]
    | .e neg => by rw [Fn.expr, paths_neg]; simp [Transform.paths, Fn.fields]
    | .one neg n a => by rw [Fn.expr, paths_neg]; simp [Transform.paths, pathsAll, Fn.fields, Arg.paths N a]
    | .two neg n a b => by rw [Fn.expr, paths_neg]; simp [Transform.paths, pathsAll, Fn.fields, Arg.paths N a, Arg.paths N b]
  theorem Arg.paths (N : Env E) : ∀ a : Arg E, Transform.paths (a.expr N) = a.fields
    | .fn f => by rw [Arg.expr, Arg.fields, Fn.paths N f]
    | .term t => by rw [Arg.expr, Arg.fields, t.paths]
    | .lit l => by rw [Arg.expr, Arg.fields, l.paths]
end
theorem Side.paths (N : Env E) (s : Side E) : Transform.paths (s.expr N) = s.fields := by
  cases s with
  | fn f => exact f.paths N
  | bool b u => simp [Side.expr, Transform.paths, Side.fields]
  | term t => exact t.paths
  | lit l => exact l.paths

theorem pat_paths (N : Env E) (l : Lit E) : paths (patExpr N l) = [] := by rw [patExpr]; split <;> simp [paths]

/-! ### Parameters -/

theorem Fld.mparam (C : Comp E) (f : Fld) : MParam C (f.expr : Expr E) := by
  rw [Fld.expr]; cases f.neg <;> simp [negE, MParam, MParams]
theorem Num.mparam (C : Comp E) (n : Num E) : MParam C n.expr := by cases n <;> simp [Num.expr, MParam]
theorem Lit.mparam (C : Comp E) (l : Lit E) : MParam C l.expr := by
  cases l with
  | num n => exact n.mparam C
  | str s => simp [Lit.expr, MParam]
theorem negE_mparam (C : Comp E) {e : Expr E} (neg : Bool) (h : MParam C e) : MParam C (negE neg e) := by
  cases neg
  · exact h
  · exact ⟨h, trivial⟩
theorem Term.mparam (C : Comp E) (t : Term E) : MParam C t.expr := by
  cases t with
  | field f => exact f.mparam C
  | left n o f => exact ⟨n.mparam C, f.mparam C, trivial⟩
  | right f o n => exact ⟨f.mparam C, n.mparam C, trivial⟩
  | both f o g => exact ⟨f.mparam C, g.mparam C, trivial⟩
mutual
  theorem Fn.mparam (N : Env E) (C : Comp E) : ∀ f : Fn E, MParam C (f.expr N)
    | .pi neg => by rw [Fn.expr]; exact negE_mparam C neg trivial
    | .e neg => by rw [Fn.expr]; exact negE_mparam C neg trivial
    | .one neg n a => by rw [Fn.expr]; exact negE_mparam C neg ⟨Arg.mparam N C a, trivial⟩
    | .two neg n a b => by rw [Fn.expr]; exact negE_mparam C neg ⟨Arg.mparam N C a, Arg.mparam N C b, trivial⟩
  theorem Arg.mparam (N : Env E) (C : Comp E) : ∀ a : Arg E, MParam C (a.expr N)
    | .fn f => by rw [Arg.expr]; exact Fn.mparam N C f
    | .term t => by rw [Arg.expr]; exact t.mparam C
    | .lit l => by rw [Arg.expr]; exact l.mparam C
end
theorem Side.mparam (N : Env E) (C : Comp E) (s : Side E) : MParam C (s.expr N) := by
  cases s with
  | fn f => exact f.mparam N C
  | bool b u => simp [Side.expr, MParam]
  | term t => exact t.mparam C
  | lit l => exact l.mparam C

theorem pat_mparam (N : Env E) (C : Comp E) (l : Lit E) (h : (patVal N C l).isSome) : MParam C (patExpr N l) := by
  have := pat_param N C [] l h
  rw [patExpr] at this ⊢
  split
  · rename_i hp; rw [if_pos hp] at this; exact this
  · rename_i hp; rw [if_neg hp] at this; exact this

/-! ### Values -/

theorem mVal_one (X : Fns E) (C : Comp E) (env : Transform.Env) {s : List Nat} {f : FName} (h : fnameOf s = f) (ha : f.arity = 1) (e : Expr E) :
    mVal X C env (.func s (.cons e .nil)) = mVal X C env e >>= fun v => applyFn X f [v] := by
  rw [mVal, h, ha, mVals, mVals]
  cases mVal X C env e <;> rfl

theorem mVal_two (X : Fns E) (C : Comp E) (env : Transform.Env) {s : List Nat} {f : FName} (h : fnameOf s = f) (ha : f.arity = 2) (e e' : Expr E) :
    mVal X C env (.func s (.cons e (.cons e' .nil))) = mVal X C env e >>= fun v => mVal X C env e' >>= fun w => applyFn X f [v, w] := by
  rw [mVal, h, ha, mVals, mVals, mVals]
  cases mVal X C env e with
  | ok v => cases mVal X C env e' <;> rfl
  | _ => rfl

theorem mVal_neg (X : Fns E) (C : Comp E) (env : Transform.Env) (neg : Bool) (e : Expr E) :
    mVal X C env (negE neg e) = mVal X C env e >>= negIf X neg := by
  cases neg with
  | true => exact mVal_one X C env fnameOf_neg rfl e
  | false =>
    show mVal X C env e = _
    cases mVal X C env e <;> rfl

theorem lastOf_getLast : ∀ (l : List D) (o : Option D), lastOf o l = l.getLast?.or o
  | [], o => rfl
  | [x], o => rfl
  | x :: y :: l, o => by
    show lastOf (some x) (y :: l) = _
    rw [lastOf_getLast (y :: l), List.getLast?_cons_cons]
    cases h : (y :: l).getLast? with
    | none => simp at h
    | some z => rfl

theorem docEnv_eq (d : D) (p : Path) : docEnv d p = (walk p d).getLast? := by rw [docEnv, lastOf_getLast, Option.or_none]

theorem Num.mVal (X : Fns E) (C : Comp E) (env : Transform.Env) (n : Num E) : Transform.mVal X C env n.expr = .ok ⟨n.data, true⟩ := by
  cases n <;> simp [Num.expr, Transform.mVal] <;> rfl

theorem Lit.mVal (X : Fns E) (C : Comp E) (env : Transform.Env) (l : Lit E) : Transform.mVal X C env l.expr = .ok l.val := by
  cases l with
  | num n => exact n.mVal X C env
  | str s => simp [Lit.expr, Transform.mVal]; rfl

theorem Fld.mVal (X : Fns E) (C : Comp E) (d : D) (f : Fld) : Transform.mVal X C (docEnv d) f.expr = fieldIn d f.path >>= negIf X f.neg := by
  rw [Fld.expr, mVal_neg, Transform.mVal, docEnv_eq]
  unfold fieldIn fieldVal
  cases (walk f.path d).getLast? <;> rfl

theorem Term.mVal (X : Fns E) (C : Comp E) (d : D) (t : Term E) : Transform.mVal X C (docEnv d) t.expr = t.val2 X (fieldIn d) := by
  cases t with
  | field f => exact f.mVal X C d
  | left n o f => rw [Term.expr, mVal_two X C _ o.fnameOf_name o.arity, n.mVal, Fld.mVal]; rfl
  | right f o n => rw [Term.expr, mVal_two X C _ o.fnameOf_name o.arity, Fld.mVal, n.mVal]; rfl
  | both f o g => rw [Term.expr, mVal_two X C _ o.fnameOf_name o.arity, Fld.mVal, Fld.mVal]; rfl

mutual
  theorem Fn.mVal (N : Env E) (X : Fns E) (C : Comp E) (d : D) : ∀ f : Fn E, Transform.mVal X C (docEnv d) (f.expr N) = f.val2 N X (fieldIn d)
    | .pi neg => by rw [Fn.expr, mVal_neg, Transform.mVal]; rfl
    | .e neg => by rw [Fn.expr, mVal_neg, Transform.mVal]; rfl
    | .one neg n a => by
      rw [Fn.expr, mVal_neg, mVal_one X C _ n.fnameOf_name n.arity, Arg.mVal N X C d a, Fn.val2]
      cases Arg.val2 N X (fieldIn d) a <;> rfl
    | .two neg n a b => by
      rw [Fn.expr, mVal_neg, mVal_two X C _ n.fnameOf_name n.arity, Arg.mVal N X C d a, Arg.mVal N X C d b, Fn.val2]
      cases Arg.val2 N X (fieldIn d) a with
      | ok v => cases Arg.val2 N X (fieldIn d) b <;> rfl
      | _ => rfl
  theorem Arg.mVal (N : Env E) (X : Fns E) (C : Comp E) (d : D) : ∀ a : Arg E, Transform.mVal X C (docEnv d) (a.expr N) = a.val2 N X (fieldIn d)
    | .fn f => by rw [Arg.expr, Arg.val2, Fn.mVal N X C d f]
    | .term t => by rw [Arg.expr, Arg.val2, t.mVal]
    | .lit l => by rw [Arg.expr, Arg.val2, l.mVal]
end

theorem Side.mVal (N : Env E) (X : Fns E) (C : Comp E) (d : D) (s : Side E) :
    Transform.mVal X C (docEnv d) (s.expr N) = s.val2 N X (fieldIn d) := by
  cases s with
  | fn f => exact f.mVal N X C d
  | bool b u => cases b <;> simp [Side.expr, Transform.mVal] <;> rfl
  | term t => exact t.mVal X C d
  | lit l => exact l.mVal X C _

theorem pat_mVal (N : Env E) (X : Fns E) (C : Comp E) (env : Transform.Env) (l : Lit E) {q : FV E} (h : patVal N C l = some q) :
    mVal X C env (patExpr N l) = .ok q := by
  rw [patVal] at h; rw [patExpr]
  by_cases hp : isPcre (l.text N)
  · rw [if_pos hp] at h ⊢
    obtain ⟨r, hr, rfl⟩ := Option.map_eq_some_iff.1 h
    rw [mVal, hr]
  · rw [if_neg hp] at h ⊢
    obtain ⟨r, hr, rfl⟩ := Option.map_eq_some_iff.1 h
    rw [mVal, hr]

/-! ### Missing fields -/

theorem walk_gone (d : D) (p : Path) : (docEnv d p).isNone = (walk p d).isEmpty := by
  rw [docEnv_eq]; cases walk p d <;> simp

theorem notGone_negE (env : Transform.Env) {e : Expr E} (neg : Bool) (h : isGone env e = false ∧ IsField e = false) :
    isGone env (negE neg e) = false ∧ IsField (negE neg e) = false := by
  cases neg
  · exact h
  · exact ⟨rfl, rfl⟩

theorem Fn.notGone (N : Env E) (env : Transform.Env) : ∀ f : Fn E, isGone env (f.expr N) = false ∧ IsField (f.expr N) = false
  | .pi neg | .e neg | .one neg .. | .two neg .. => by rw [Fn.expr]; exact notGone_negE env neg ⟨rfl, rfl⟩

theorem Lit.notGone (env : Transform.Env) (l : Lit E) : isGone env l.expr = false ∧ IsField l.expr = false := by
  cases l with
  | num n => cases n <;> exact ⟨rfl, rfl⟩
  | str s => exact ⟨rfl, rfl⟩

theorem Term.gone (d : D) (t : Term E) : isGone (docEnv d) t.expr = (Side.term t).gone d ∧ IsField t.expr = (Side.term t).bare.isSome := by
  cases t with
  | field f =>
    obtain ⟨neg, segs⟩ := f
    cases neg
    · exact ⟨walk_gone d _, rfl⟩
    · exact ⟨rfl, rfl⟩
  | _ => exact ⟨rfl, rfl⟩

theorem Side.gone_eq (N : Env E) (d : D) (s : Side E) : isGone (docEnv d) (s.expr N) = s.gone d ∧ IsField (s.expr N) = s.bare.isSome := by
  cases s with
  | fn f => exact f.notGone N _
  | bool b u => exact ⟨rfl, rfl⟩
  | term t => exact t.gone d
  | lit l => exact l.notGone _

theorem multiHolds_eq (X : Fns E) (C : Comp E) (c : Cmp) (l r : Expr E) (env : Transform.Env) :
    multiHolds X C c l r env = (!isGone env l && !isGone env r && holdsB c (mVal X C env l) (mVal X C env r)) := by
  unfold multiHolds holdsB
  cases isGone env l <;> cases isGone env r <;> simp
  cases mVal X C env l with
  | ok a =>
    simp only [Res.bind_ok]
    cases mVal X C env r <;> rfl
  | _ => cases mVal X C env r <;> rfl

/-! ### Conditions -/

def Cond.places2 (c : Cond E) : List (Path × Bool) := c.paths2.map (·, false)

/-- What is needed of the expression of a condition. -/
structure Good2 (X : Fns E) (C : Comp E) (d : D) (e : Expr E) (t : Bool) (L : List (Path × Bool)) : Prop where
  frag : Frag2 C e
  safe : SafeE e
  lf : LoopFree e
  tr : Transform.truth2 X C e d = t
  cs : mConds e = L
  once : OnceE e d

theorem oneField_of_differ {ps : List Path} (h : differ ps = false) : OneField ps := by
  cases ps with
  | nil => intro q hq; cases hq
  | cons p ps =>
    intro q hq
    rcases List.mem_cons.1 hq with rfl | hq
    · rfl
    · rw [differ, List.any_eq_false] at h
      simpa using h q hq

/-- Conditions about one field. -/
theorem Good.two {N : Env E} {X : Fns E} {C : Comp E} {d : D} {c : Cmp} {l r : Expr E} {t : Bool} {L : List (Path × Bool)}
    (hs : several l r = false) (h : Good N X C d (.cmp c l r) t L) : Good2 X C d (.cmp c l r) t L where
  frag := by rw [Frag2, if_neg (by simp [hs])]; exact h.frag
  safe := h.safe
  lf := h.lf
  tr := by rw [Transform.truth2, if_neg (by simp [hs])]; exact h.tr
  cs := by rw [mConds, if_neg (by simp [hs])]; exact h.cs
  once := fun hc => by rw [hs] at hc; cases hc

/-- Conditions about several fields. -/
theorem good_many {X : Fns E} {C : Comp E} {d : D} {c : Cmp} {l r : Expr E} (hm : several l r = true) (hl : MParam C l) (hr : MParam C r)
    (ha : Loose (paths l ++ paths r)) (sl : SafeParam l) (sr : SafeParam r) (ho : Once l r d) :
    Good2 X C d (.cmp c l r) (pairHolds X C c l r d) ((paths l ++ paths r).map (·, false)) where
  frag := by rw [Frag2, if_pos hm]; exact ⟨hl, hr, ha⟩
  safe := ⟨sl, sr⟩
  lf := trivial
  tr := by rw [Transform.truth2, if_pos hm]
  cs := by rw [mConds, if_pos hm]
  once := fun _ => ho

theorem Good2.neg {X : Fns E} {C : Comp E} {d : D} {e : Expr E} {t : Bool} {L : List (Path × Bool)} (h : Good2 X C d e t L) :
    Good2 X C d (.not e) (!t) L :=
  ⟨h.frag, h.safe, h.lf, by rw [Transform.truth2, h.tr], by rw [mConds, h.cs], h.once⟩

theorem Arg.gone_false (N : Env E) {a : Arg E} (h : differ a.fields = true) (env : Transform.Env) : isGone env (a.expr N) = false := by
  cases a with
  | fn f => exact (f.notGone N env).1
  | lit l => exact (l.notGone env).1
  | term t =>
    cases t with
    | field f => simp [Arg.fields, Term.fields, differ] at h
    | _ => rfl

theorem Side.gone_false {s : Side E} (h : differ s.fields = true) (d : D) : s.gone d = false := by
  cases s with
  | term t =>
    cases t with
    | field f => simp [Side.fields, Term.fields, differ] at h
    | _ => rfl
  | _ => rfl

theorem pat_gone (N : Env E) (l : Lit E) (env : Transform.Env) : isGone env (patExpr N l) = false := by rw [patExpr]; split <;> rfl

theorem Cond.good2 (N : Env E) (X : Fns E) (C : Comp E) (d : D) : ∀ c : Cond E, c.valid N → c.Simple2 N C → c.Together d →
    Good2 X C d (c.expr N) (c.truth2 N X C (fun _ => false) d) c.places2
  | .not c, hv, hs, ht => by
    have := (Cond.good2 N X C d c hv hs ht).neg
    rw [Cond.expr]
    exact this
  | .bool b u, hv, hs, _ => by
    have h := Cond.good N X C d (.bool b u) hv hs
    cases b <;> exact ⟨by simp [Cond.expr, Frag2], h.safe, h.lf, h.tr, by simp [Cond.expr, mConds, conds, Cond.places2, Cond.paths2],
      by simp [Cond.expr, OnceE]⟩
  | .regex a l, hv, hs, ht => by
    obtain ⟨ha, hsa, hp⟩ := hs
    have hpath : Transform.paths (a.expr N) ++ Transform.paths (patExpr N l) = a.fields := by rw [a.paths N, pat_paths, List.append_nil]
    cases hd : differ a.fields with
    | false =>
      have h := Cond.good N X C d (.regex a l) hv ⟨oneField_of_differ hd, hsa, hp⟩
      have h2 := h.two (by rw [several_eq, hpath]; exact hd)
      rw [Cond.truth2, if_neg (by simp [hd])]
      rw [Cond.places2, Cond.paths2, if_neg (by simp [hd])]
      exact h2
    | true =>
      obtain ⟨q, hq⟩ := Option.isSome_iff_exists.1 hp
      have hsev : several (a.expr N) (patExpr N l) = true := by rw [several_eq, hpath]; exact hd
      have h := good_many (X := X) (C := C) (d := d) (c := .like) hsev (a.mparam N C) (pat_mparam N C l hp)
        (by rw [hpath]; exact ha hd) (a.safe N hsa) (pat_safe N l) (by
          rcases ht hd with ⟨x, hx, hne⟩ | ⟨hb, _⟩
          · exact Or.inl ⟨x, by rw [Transform.base, hpath]; exact hx, hne⟩
          · cases hb)
      rw [hpath] at h
      have e : pairHolds X C .like (a.expr N) (patExpr N l) d = Cond.truth2 N X C (fun _ => false) d (.regex a l) := by
        rw [pairHolds, if_neg (by simp), multiHolds_eq, Arg.gone_false N hd, pat_gone, a.mVal N X C d, pat_mVal N X C _ l hq, Cond.truth2,
          if_pos hd, hq]
        rfl
      rw [e] at h
      rw [Cond.places2, Cond.paths2, if_pos hd]
      exact h
  | .regexFn a f, hv, _, _ => by simp [Cond.valid] at hv
  | .exist f, hv, hs, _ => by
    have h := Cond.good N X C d (.exist f) hv hs
    exact ⟨h.frag, h.safe, h.lf, h.tr, h.cs, trivial⟩
  | .null s neg, hv, hs, ht => by
    have hpath : Transform.paths (s.expr N) ++ Transform.paths (.value (.json .null) : Expr E) = s.fields := by
      rw [s.paths N]; simp [Transform.paths]
    cases hd : differ s.fields with
    | false =>
      have h := Cond.good N X C d (.null s false) hv ⟨oneField_of_differ hd, hs.2⟩
      have h2 : Good2 X C d (.cmp .eq (s.expr N) (.value (.json .null))) _ _ := h.two (by rw [several_eq, hpath]; exact hd)
      rw [Cond.truth2, if_neg (by simp [hd])]
      rw [Cond.places2, Cond.paths2, if_neg (by simp [hd])]
      cases neg
      · exact h2
      · have h3 := h2.neg
        have e : (!Cond.truth N X C (fun _ => false) d (.null s false)) = Cond.truth N X C (fun _ => false) d (.null s true) := by
          simp [Cond.truth]
        rw [e] at h3
        exact h3
    | true =>
      have hsev : several (s.expr N) (.value (.json .null)) = true := by rw [several_eq, hpath]; exact hd
      have h := good_many (X := X) (C := C) (d := d) (c := .eq) hsev (s.mparam N C) trivial
        (by rw [hpath]; exact hs.1 hd) (s.safe N hs.2) trivial (by
          rcases ht hd with ⟨x, hx, hne⟩ | ⟨hb, _⟩
          · exact Or.inl ⟨x, by rw [Transform.base, hpath]; exact hx, hne⟩
          · cases hb)
      rw [hpath] at h
      have e : pairHolds X C .eq (s.expr N) (.value (.json .null)) d = holdsB .eq (s.val2 N X (fieldIn d)) (.ok ⟨.null, true⟩) := by
        rw [pairHolds, if_neg (by simp), multiHolds_eq, (s.gone_eq N d).1, Side.gone_false hd, s.mVal N X C d]
        rfl
      rw [e] at h
      rw [Cond.places2, Cond.paths2, if_pos hd, Cond.truth2, if_pos hd]
      cases neg
      · simpa [Cond.expr] using h
      · simpa [Cond.expr] using h.neg
  | .missing s neg, hv, hs, _ => by
    have h := Cond.good N X C d (.missing s neg) hv hs
    cases neg
    · exact ⟨h.frag, h.safe, h.lf, h.tr, h.cs, trivial⟩
    · exact ⟨h.frag, h.safe, h.lf, h.tr, h.cs, trivial⟩
  | .cmp l c0 c1 r, hv, hs, ht => by
    have hc : (cmpOf c0 c1).isSome := by
      rw [Cond.valid, Bool.and_eq_true] at hv; exact hv.2
    obtain ⟨c, hc⟩ := Option.isSome_iff_exists.1 hc
    have hex : (Cond.cmp l c0 c1 r).expr N = .cmp c (l.expr N) (r.expr N) := by rw [Cond.expr, hc]
    have hpath : Transform.paths (l.expr N) ++ Transform.paths (r.expr N) = l.fields ++ r.fields := by rw [l.paths N, r.paths N]
    obtain ⟨ha, hl, hr⟩ := hs
    cases hd : differ (l.fields ++ r.fields) with
    | false =>
      have h := Cond.good N X C d (.cmp l c0 c1 r) hv ⟨oneField_of_differ hd, hl, hr⟩
      rw [hex] at h
      have h2 := h.two (by rw [several_eq, hpath]; exact hd)
      rw [hex, Cond.truth2, if_neg (by simp [hd])]
      rw [Cond.places2, Cond.paths2, if_neg (by simp [hd])]
      exact h2
    | true =>
      have hsev : several (l.expr N) (r.expr N) = true := by rw [several_eq, hpath]; exact hd
      have h := good_many (X := X) (C := C) (d := d) (c := c) hsev (l.mparam N C) (r.mparam N C)
        (by rw [hpath]; exact ha hd) (l.safe N hl) (r.safe N hr) (by
          rcases ht hd with ⟨x, hx, hne⟩ | ⟨hb, hlen⟩
          · exact Or.inl ⟨x, by rw [Transform.base, hpath]; exact hx, hne⟩
          · rw [Bool.and_eq_true] at hb
            exact Or.inr ⟨by rw [(l.gone_eq N d).2]; exact hb.1, by rw [(r.gone_eq N d).2]; exact hb.2, by rw [Transform.base, hpath]; exact hlen⟩)
      rw [hpath] at h
      have key : ∀ c', multiHolds X C c' (l.expr N) (r.expr N) (docEnv d) = Side.holds2 N X d c' l r := by
        intro c'
        rw [multiHolds_eq, (l.gone_eq N d).1, (r.gone_eq N d).1, l.mVal N X C d, r.mVal N X C d, Side.holds2]
      have e : pairHolds X C c (l.expr N) (r.expr N) d = Cond.truth2 N X C (fun _ => false) d (.cmp l c0 c1 r) := by
        rw [pairHolds, key, key, Cond.truth2, if_pos hd, hc]
        cases c <;> simp
      rw [e] at h
      rw [hex, Cond.places2, Cond.paths2, if_pos hd]
      exact h

/-! ### Filters -/

mutual
  theorem Filt.good2 (N : Env E) (X : Fns E) (C : Comp E) (d : D) : ∀ f : Filt E, f.valid N → (∀ c ∈ f.conds, c.Simple2 N C ∧ c.Together d) →
      Frag2s C (f.exprs N) ∧ SafeEs (f.exprs N) ∧ LoopFrees (f.exprs N) ∧ truth2Any X C (f.exprs N) d = f.truth2 N X C (fun _ => false) d ∧
        mCondsAll (f.exprs N) = f.conds.flatMap Cond.places2 ∧ OnceEs (f.exprs N) d
    | .one c, hv, hs => by
      rw [Filt.valid] at hv; rw [Filt.conds] at hs
      obtain ⟨h1, h2, h3, h4, h5, h6⟩ := Conj.good2 N X C d c hv hs
      rw [Filt.exprs, Filt.truth2, Filt.conds]
      refine ⟨h1, ⟨h2, trivial⟩, ⟨h3, trivial⟩, ?_, ?_, ⟨h6, trivial⟩⟩
      · rw [truth2Any, truth2Any, Transform.truth2, h4, Bool.or_false]
      · rw [mCondsAll, mCondsAll, mConds, h5, List.append_nil]
    | .or c r, hv, hs => by
      rw [Filt.valid, Bool.and_eq_true] at hv; rw [Filt.conds] at hs
      obtain ⟨h1, h2, h3, h4, h5, h6⟩ := Conj.good2 N X C d c hv.1 fun x hx => hs x (List.mem_append_left _ hx)
      obtain ⟨g1, g2, g3, g4, g5, g6⟩ := Filt.good2 N X C d r hv.2 fun x hx => hs x (List.mem_append_right _ hx)
      rw [Filt.exprs, Filt.truth2, Filt.conds]
      refine ⟨?_, ⟨h2, g2⟩, ⟨h3, g3⟩, ?_, ?_, ⟨h6, g6⟩⟩
      · cases hr : Filt.exprs N r with
        | nil => rw [hr] at g1; simp [Frag2s] at g1
        | cons e es => rw [hr] at g1; exact ⟨h1, g1⟩
      · rw [truth2Any, Transform.truth2, h4, g4]
      · rw [mCondsAll, mConds, h5, g5, List.flatMap_append]
  theorem Conj.good2 (N : Env E) (X : Fns E) (C : Comp E) (d : D) : ∀ f : Conj E, f.valid N → (∀ c ∈ f.conds, c.Simple2 N C ∧ c.Together d) →
      Frag2s C (f.exprs N) ∧ SafeEs (f.exprs N) ∧ LoopFrees (f.exprs N) ∧ truth2All X C (f.exprs N) d = f.truth2 N X C (fun _ => false) d ∧
        mCondsAll (f.exprs N) = f.conds.flatMap Cond.places2 ∧ OnceEs (f.exprs N) d
    | .one c, hv, hs => by
      rw [Conj.valid] at hv; rw [Conj.conds] at hs
      obtain ⟨h1, h2, h3, h4, h5, h6⟩ := Item.good2 N X C d c hv hs
      rw [Conj.exprs, Conj.truth2, Conj.conds]
      refine ⟨h1, ⟨h2, trivial⟩, ⟨h3, trivial⟩, ?_, ?_, ⟨h6, trivial⟩⟩
      · rw [truth2All, truth2All, h4, Bool.and_true]
      · rw [mCondsAll, mCondsAll, h5, List.append_nil]
    | .and c r, hv, hs => by
      rw [Conj.valid, Bool.and_eq_true] at hv; rw [Conj.conds] at hs
      obtain ⟨h1, h2, h3, h4, h5, h6⟩ := Item.good2 N X C d c hv.1 fun x hx => hs x (List.mem_append_left _ hx)
      obtain ⟨g1, g2, g3, g4, g5, g6⟩ := Conj.good2 N X C d r hv.2 fun x hx => hs x (List.mem_append_right _ hx)
      rw [Conj.exprs, Conj.truth2, Conj.conds]
      refine ⟨?_, ⟨h2, g2⟩, ⟨h3, g3⟩, ?_, ?_, ⟨h6, g6⟩⟩
      · cases hr : Conj.exprs N r with
        | nil => rw [hr] at g1; simp [Frag2s] at g1
        | cons e es => rw [hr] at g1; exact ⟨h1, g1⟩
      · rw [truth2All, h4, g4]
      · rw [mCondsAll, h5, g5, List.flatMap_append]
  theorem Item.good2 (N : Env E) (X : Fns E) (C : Comp E) (d : D) : ∀ f : Item E, f.valid N → (∀ c ∈ f.conds, c.Simple2 N C ∧ c.Together d) →
      Good2 X C d (f.expr N) (f.truth2 N X C (fun _ => false) d) (f.conds.flatMap Cond.places2)
    | .paren f, hv, hs => by
      rw [Item.valid] at hv; rw [Item.conds] at hs
      obtain ⟨h1, h2, h3, h4, h5, h6⟩ := Filt.good2 N X C d f hv hs
      rw [Item.expr, Item.truth2, Item.conds]
      exact ⟨h1, h2, h3, by rw [Transform.truth2, h4], by rw [mConds, h5], h6⟩
    | .cond c, hv, hs => by
      rw [Item.valid] at hv; rw [Item.conds] at hs
      obtain ⟨a, b⟩ := hs c (List.mem_singleton.2 rfl)
      have := Cond.good2 N X C d c hv a b
      rw [Item.expr, Item.truth2, Item.conds]
      simpa using this
end

/-- The fields a filter reads. -/
def Filt.paths2 (f : Filt E) : List Path := f.conds.flatMap Cond.paths2

theorem places2_mem (f : Filt E) {p : Path} {b : Bool} (h : (p, b) ∈ f.conds.flatMap Cond.places2) : b = false ∧ p ∈ f.paths2 := by
  obtain ⟨c, hc, h⟩ := List.mem_flatMap.1 h
  obtain ⟨q, hq, e⟩ := List.mem_map.1 h
  cases e
  exact ⟨rfl, List.mem_flatMap.2 ⟨c, hc, hq⟩⟩

theorem seen_regular2 {f : Filt E} {d : D} (h : Seen f.paths2 d) : RegularAt (f.conds.flatMap Cond.places2) d := by
  refine ⟨fun p hp x hx he => (h.arr p (places2_mem f hp).2 x hx he).elim, fun p hp x hx he k p' b hc => ?_, fun q hq => ?_⟩
  · exact h.obj p (places2_mem f hp).2 x hx he k p' (places2_mem f hc).2
  · exact absurd (places2_mem f hq).1 (by simp)

/-- Meanings of the constants that agree on those that occur. -/
theorem Cond.truth2_congr (N : Env E) (X : Fns E) (C : Comp E) (d : D) (k k' : Bool → Bool) : ∀ c : Cond E,
    (∀ b u, c.base = .bool b u → k b = k' b) → c.truth2 N X C k d = c.truth2 N X C k' d
  | .not c, h => by rw [Cond.truth2, Cond.truth2, Cond.truth2_congr N X C d k k' c h]
  | .bool b u, h => Cond.truth_congr N X C d k k' _ h
  | .regex .., _ | .regexFn .., _ | .exist _, _ | .null .., _ | .missing .., _ | .cmp .., _ => rfl

mutual
  theorem Filt.truth2_congr (N : Env E) (X : Fns E) (C : Comp E) (d : D) (k k' : Bool → Bool) : ∀ f : Filt E,
      (∀ c ∈ f.conds, ∀ b u, c.base = .bool b u → k b = k' b) → f.truth2 N X C k d = f.truth2 N X C k' d
    | .one c, h => by
      rw [Filt.conds] at h; rw [Filt.truth2, Filt.truth2, Conj.truth2_congr N X C d k k' c h]
    | .or c r, h => by
      rw [Filt.conds] at h
      rw [Filt.truth2, Filt.truth2, Conj.truth2_congr N X C d k k' c fun x hx => h x (List.mem_append_left _ hx),
        Filt.truth2_congr N X C d k k' r fun x hx => h x (List.mem_append_right _ hx)]
  theorem Conj.truth2_congr (N : Env E) (X : Fns E) (C : Comp E) (d : D) (k k' : Bool → Bool) : ∀ f : Conj E,
      (∀ c ∈ f.conds, ∀ b u, c.base = .bool b u → k b = k' b) → f.truth2 N X C k d = f.truth2 N X C k' d
    | .one c, h => by
      rw [Conj.conds] at h; rw [Conj.truth2, Conj.truth2, Item.truth2_congr N X C d k k' c h]
    | .and c r, h => by
      rw [Conj.conds] at h
      rw [Conj.truth2, Conj.truth2, Item.truth2_congr N X C d k k' c fun x hx => h x (List.mem_append_left _ hx),
        Conj.truth2_congr N X C d k k' r fun x hx => h x (List.mem_append_right _ hx)]
  theorem Item.truth2_congr (N : Env E) (X : Fns E) (C : Comp E) (d : D) (k k' : Bool → Bool) : ∀ f : Item E,
      (∀ c ∈ f.conds, ∀ b u, c.base = .bool b u → k b = k' b) → f.truth2 N X C k d = f.truth2 N X C k' d
    | .paren f, h => by
      rw [Item.conds] at h; rw [Item.truth2, Item.truth2, Filt.truth2_congr N X C d k k' f h]
    | .cond c, h => by
      rw [Item.conds] at h
      rw [Item.truth2, Item.truth2, Cond.truth2_congr N X C d k k' c (h c (List.mem_singleton.2 rfl))]
end

/-! ### C51 -/

/-- C51 for filters whose conditions are about one or several fields, without the constant `TRUE`, on objects and arrays in which no
condition reads an empty array, nor an empty object below which there are other conditions, and in which the fields of each
comparison of several fields are below one value.  (Missing: the other filters and documents, for which it is false, see
`C51_negation`, `Transform.C62_negation`, `Transform.C62_empty_arrays`, `Transform.C62_repeated_keys`, `Transform.C32_two_fields`.) -/
theorem C51_several_partial (N : Env E) (X : Fns E) (C : Comp E) (parse : List Nat → Option (FilterExpression E)) (text : List Nat) (f : Filt E)
    (ht : text ≠ []) (hp : parse text = some f.build) (hv : f.valid N) (hs : ∀ c ∈ f.conds, c.Simple2 N C) (hc : true ∉ f.consts)
    {data : List Nat} {d : D} (hd : Begins data d) (hn : ∀ ty w, d ≠ .lit ty w) (hseen : Seen f.paths2 d) (hto : ∀ c ∈ f.conds, c.Together d) :
    ∃ df, getMatcher N C parse text = .ok (some df) ∧ ∀ m, Ready df m →
      ∃ m', run X df m data = .ok (some (f.truth2 N X C id d), m') := by
  have : f.truth2 N X C id d = f.truth2 N X C (fun _ => false) d := by
    apply Filt.truth2_congr
    intro c hcm b u hb
    cases b
    · rfl
    · exact absurd (const_mem hcm hb) hc
  rw [this]
  obtain ⟨h1, h2, h3, h4, h5, h6⟩ := Filt.good2 N X C d f hv (fun c hc => ⟨hs c hc, hto c hc⟩)
  have hone : ∀ {P : Expr E → Prop}, P (f.expr N) → ∀ x ∈ [f.expr N], P x := by
    intro P h x hx; rw [List.mem_singleton] at hx; rw [hx]; exact h
  have hreg : RegularAt (mCondsOf [f.expr N]) d := by
    rw [mCondsOf, List.flatMap_singleton, Filt.expr, mConds, h5]
    exact seen_regular2 hseen
  obtain ⟨df, g1, g2⟩ := C62_match_partial X C 0 (es := [f.expr N]) (g := f.expr N) (gs := []) rfl (hone h1) (hone h2) (hone h3) hd hn hreg (hone h6)
  refine ⟨df, ?_, fun m hm => ?_⟩
  · rw [getMatcher, newParser, if_neg ht, hp]
    simp only [C50_output, hv, if_true, andThen_some, g1, Res.bind_ok]
  · obtain ⟨m', hm'⟩ := g2 m hm
    refine ⟨m', ?_⟩
    rw [hm', List.any_cons, List.any_nil, Bool.or_false, Filt.expr, Transform.truth2, h4]

/-- `a == b AND NOT (a + b < 1)` -/
def pairFilt : Filt demoExt :=
  .one (.and (.cond (.cmp (.term (.field (fld 97))) .eq (some .eq) (.term (.field (fld 98)))))
    (.one (.cond (.not (.cmp (.term (.both (fld 97) .add (fld 98))) .lt none (.lit (.num (.int false 1#64))))))))

theorem pairFilt_simple : ∀ c ∈ pairFilt.conds, c.Simple2 demoEnv demoComp ∧ c.Together docAB1 := by
  intro c hc
  simp only [pairFilt, Filt.conds, Conj.conds, Item.conds, List.mem_append, List.mem_singleton] at hc
  have hb : ¬ EmptyArr docAB1 := fun h => h
  rcases hc with rfl | rfl
  · exact ⟨⟨fun _ => loose_ab, trivial, trivial⟩, fun _ => Or.inl ⟨docAB1, rfl, hb⟩⟩
  · exact ⟨⟨fun _ => loose_ab, ⟨by simp, by simp⟩, trivial⟩, fun _ => Or.inl ⟨docAB1, rfl, hb⟩⟩

example : ∃ df, getMatcher demoEnv demoComp (fun _ => some pairFilt.build) [120] = .ok (some df) ∧
    ∀ m, Ready df m → ∃ m', run demoFns df m textAB1 = .ok (some true, m') := by
  have h := C51_several_partial demoEnv demoFns demoComp (fun _ => some pairFilt.build) [120] pairFilt (by simp) rfl (by decide)
    (fun c hc => (pairFilt_simple c hc).1) (by decide) docAB1_text (by intro ty w h; cases h) (seen_of_check (by decide))
    (fun c hc => (pairFilt_simple c hc).2)
  have e : pairFilt.truth2 demoEnv demoFns demoComp id docAB1 = true := by decide +kernel
  rw [e] at h
  exact h

/-- `a == b` matches the document `5`, which has neither field. -/
theorem C51_scalar :
    (getMatcher demoEnv demoComp (fun _ => some (Filt.one (.one (.cond (.cmp (.term (.field (fld 97))) .eq (some .eq)
        (.term (.field (fld 98))))))).build) [120] >>= fun o => match o with
      | some df => run demoFns df (newMatcher df) [53] >>= fun r => Res.ok r.1
      | none => .ok none) = .ok (some true) := by
  decide +kernel

end Verif.Filter
