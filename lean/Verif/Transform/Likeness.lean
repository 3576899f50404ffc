import Verif.Transform.ReachPairs
import Verif.Transform.ReachUnref
import Verif.Transform.ElementSem
import Verif.Transform.Order

/-!
# C24 and C26 for comparisons of several fields

The layout of a text and the order of members matter to no expression on documents on which it compares no two containers.
-/

namespace Verif.Transform
open Verif.FastVal Verif.Match Verif.Expr
open Verif.Token (D Es Ms Tok)

variable {E : Ext}

/-! ### Specification -/

/-- Operands that never stand for an array or object of the document. -/
def Inert : Expr E → Prop
  | .func .. => True
  | e => ScalarConst e

/-- The operand stands for no array or object in the document `d`. -/
def ScalarIn (d : D) : Expr E → Prop
  | .field f => ∀ x ∈ walk f.path d, ∃ ty w, x = .lit ty w
  | e => Inert e

mutual
  /-- No comparison is between two arrays or objects of the document: the left or the right operand is none, or a pattern is matched. -/
  def OneScalar : Expr E → D → Prop
    | .cmp c l r, d => c = .like ∨ ScalarIn d l ∨ ScalarIn d r
    | .not e, d => OneScalar e d
    | .and es, d => OneScalars es d
    | .or es, d => OneScalars es d
    | .loop _ _ i s, d => ∀ x ∈ walk (inPath i) d, ∀ y ∈ elements x, OneScalar s y
    | _, _ => True
  def OneScalars : Exprs E → D → Prop
    | .nil, _ => True
    | .cons e r, d => OneScalar e d ∧ OneScalars r d
end

mutual
  /-- Comparisons with constants meet the condition on every document. -/
  theorem oneSided_scalar : ∀ (e : Expr E) (d : D), OneSidedE e → OneScalar e d
    | .cmp c l r, d, h => by
      have hc : ∀ e : Expr E, ScalarConst e → ScalarIn d e := by
        intro e he; cases e <;> first | exact he.elim | exact he
      rcases h with h | h | h
      · exact Or.inl h
      · exact Or.inr (Or.inl (hc l h))
      · exact Or.inr (Or.inr (hc r h))
    | .not e, d, h => by rw [OneScalar]; exact oneSided_scalar e d h
    | .and es, d, h => by rw [OneScalar]; exact oneSided_scalars es d h
    | .or es, d, h => by rw [OneScalar]; exact oneSided_scalars es d h
    | .loop _ _ i s, d, h => by rw [OneScalar]; exact fun _ _ y _ => oneSided_scalar s y h
    | .exist _, d, _ | .notExist _, d, _ | .tru, d, _ | .fals, d, _ | .value _, d, _ | .regex _, d, _ | .pcre _, d, _ | .time _, d, _
    | .field _, d, _ | .func .., d, _ => by simp [OneScalar]
  theorem oneSided_scalars : ∀ (es : Exprs E) (d : D), OneSidedEs es → OneScalars es d
    | .nil, _, _ => trivial
    | .cons e r, d, h => ⟨oneSided_scalar e d h.1, oneSided_scalars r d h.2⟩
end

/-! ### Relations between documents -/

/-- Documents so related have related values at all paths and the same scalars. -/
structure Likeness (R : D → D → Prop) : Prop where
  lit : ∀ {ty w y}, R (.lit ty w) y → y = .lit ty w
  obj : ∀ {ws ms y}, R (.obj ws ms) y → ∃ ws' ms', y = .obj ws' ms' ∧ (∀ k, All2 R (membersAt k ms) (membersAt k ms')) ∧ (ms = .nil ↔ ms' = .nil)
  arr : ∀ {ws es y}, R (.arr ws es) y → ∃ ws' es', y = .arr ws' es' ∧ All2 R (esList es) (esList es')

section
variable {R : D → D → Prop}

theorem along_elemsAt (k : List Nat) : ∀ (es es' : Es) (i : Nat), All2 R (esList es) (esList es') → All2 R (elemsAt k i es) (elemsAt k i es')
  | .nil, .nil, _, _ => .nil
  | .nil, .cons .., _, h => by cases h
  | .cons .., .nil, _, h => by cases h
  | .cons d _ _ r, .cons d' _ _ r', i, h => by
    rw [esList, esList] at h
    cases h with
    | cons hx hr =>
      rw [elemsAt, elemsAt]
      split
      · exact .cons hx (along_elemsAt k r r' _ hr)
      · exact along_elemsAt k r r' _ hr

theorem along_nil {es es' : Es} (h : All2 R (esList es) (esList es')) : es = .nil ↔ es' = .nil := by
  cases es <;> cases es' <;> simp only [esList] at h <;> first | (cases h; done) | simp

variable (hR : Likeness R)
include hR

theorem Likeness.shape {x y : D} (h : R x y) : (∀ L, noticed L x = noticed L y) ∧ (∀ L, entered L x = entered L y) ∧ scalar x = scalar y := by
  cases x with
  | lit ty w => cases hR.lit h; exact ⟨fun _ => rfl, fun _ => rfl, rfl⟩
  | obj ws ms =>
    obtain ⟨ws', ms', rfl, _, hn⟩ := hR.obj h
    refine ⟨fun L => ?_, fun _ => rfl, rfl⟩
    cases ms with
    | nil => rw [hn.1 rfl]; rfl
    | cons =>
      cases ms' with
      | nil => exact absurd (hn.2 rfl) (by simp)
      | cons => rfl
  | arr ws es =>
    obtain ⟨ws', es', rfl, ha⟩ := hR.arr h
    have hn := along_nil ha
    cases es with
    | nil => rw [hn.1 rfl]; exact ⟨fun _ => rfl, fun _ => rfl, rfl⟩
    | cons =>
      cases es' with
      | nil => exact absurd (hn.2 rfl) (by simp)
      | cons => exact ⟨fun _ => rfl, fun _ => rfl, rfl⟩

theorem Likeness.reach (b : Bool) : ∀ (L : List (Path × Bool)) (p : Path) (x y : D), R x y → All2 R (reach b L p x) (reach b L p y)
  | L, [], x, y, h => by
    rw [Transform.reach, Transform.reach, (hR.shape h).1 L]
    split
    · exact .cons h .nil
    · exact .nil
  | L, k :: p, .obj ws ms, y, h => by
    obtain ⟨ws', ms', rfl, hm, _⟩ := hR.obj h
    rw [Transform.reach, Transform.reach]
    exact (hm k).bind fun x y h => Likeness.reach b (below k L) p x y h
  | L, k :: p, .arr ws es, y, h => by
    obtain ⟨ws', es', rfl, ha⟩ := hR.arr h
    rw [Transform.reach, Transform.reach]
    split
    · exact .nil
    · exact (along_elemsAt k es es' 0 ha).bind fun x y h => Likeness.reach b (below k L) p x y h
  | L, k :: p, .lit ty w, y, h => by cases hR.lit h; exact .nil

theorem Likeness.reachA : ∀ (L : List (Path × Bool)) (p : Path) (x y : D), R x y → All2 R (reachA L p x) (reachA L p y)
  | L, [], x, y, h => by
    rw [Transform.reachA, Transform.reachA, (hR.shape h).2.1 L]
    split
    · exact .cons h .nil
    · exact .nil
  | L, k :: p, .obj ws ms, y, h => by
    obtain ⟨ws', ms', rfl, hm, _⟩ := hR.obj h
    rw [Transform.reachA, Transform.reachA]
    exact (hm k).bind fun x y h => Likeness.reachA (below k L) p x y h
  | L, k :: p, .arr ws es, y, h => by
    obtain ⟨ws', es', rfl, ha⟩ := hR.arr h
    rw [Transform.reachA, Transform.reachA]
    split
    · exact .nil
    · exact (along_elemsAt k es es' 0 ha).bind fun x y h => Likeness.reachA (below k L) p x y h
  | L, k :: p, .lit ty w, y, h => by cases hR.lit h; exact .nil

theorem Likeness.val {x y : D} (h : R x y) : RSim (valOf (E := E) x) (valOf y) := by
  cases x with
  | lit ty w => cases hR.lit h; exact RSim.of_eq rfl
  | obj ws ms => obtain ⟨ws', ms', rfl, _⟩ := hR.obj h; exact Or.inr (Or.inl ⟨_, _, _, rfl, rfl⟩)
  | arr ws es => obtain ⟨ws', es', rfl, _⟩ := hR.arr h; exact Or.inr (Or.inr ⟨_, _, _, rfl, rfl⟩)

end

/-! ### Values reached are values -/

theorem reachA_walk : ∀ (L : List (Path × Bool)) (p : Path) (d x : D), x ∈ reachA L p d → x ∈ walk p d
  | L, [], d, x, h => by
    rw [reachA] at h; rw [walk]
    split at h
    · exact h
    · cases h
  | L, k :: p, .obj ws ms, x, h => by
    rw [reachA] at h; rw [walk]
    obtain ⟨y, hy, h⟩ := List.mem_flatMap.1 h
    exact List.mem_flatMap.2 ⟨y, hy, reachA_walk _ p y x h⟩
  | L, k :: p, .arr ws es, x, h => by
    rw [reachA] at h; rw [walk]
    split at h
    · cases h
    · obtain ⟨y, hy, h⟩ := List.mem_flatMap.1 h
      exact List.mem_flatMap.2 ⟨y, hy, reachA_walk _ p y x h⟩
  | L, k :: p, .lit ty w, x, h => by rw [reachA] at h; cases h

/-! ### Comparisons -/

theorem scalar_lit {ty : Tok} {w : List Nat} {v : FV E} (h : valOf (.lit ty w) = .ok v) : Scalar v := by
  rw [valOf] at h
  unfold parseLit at h
  split at h
  all_goals first
    | (obtain ⟨s, _, h⟩ := Res.bind_eq_ok.1 h; cases h; simp [Scalar, Data.ty]; done)
    | (cases h; simp [Scalar, Data.ty]; done)
    | (cases h; done)

theorem cmpHolds_sim {c : Cmp} {a a' b b' : FV E} (ha : VSim a a') (hb : VSim b b') (h : c = .like ∨ Scalar a ∨ Scalar b) :
    cmpHolds c a b = cmpHolds c a' b' := by
  have hsame : ∀ {x y : FV E}, VSim x y → Scalar x → x = y := by
    intro x y h hs
    rcases h with h | ⟨_, _, _, rfl, _⟩ | ⟨_, _, _, rfl, _⟩
    · exact h
    · exact absurd rfl hs.2
    · exact absurd rfl hs.1
  by_cases hc : c = .like
  · subst hc
    simp only [cmpHolds, matchesRe_sim ha hb]
  · have hcmp : compare a b = compare a' b' := by
      rcases h with h | h | h
      · exact absurd h hc
      · cases hsame ha h; exact compare_right hb h
      · cases hsame hb h; exact compare_left ha h
    cases c <;> first | exact absurd rfl hc | simp only [cmpHolds, equals, hcmp]

theorem invalidV_scalar : Scalar (invalidV : FV E) := by simp [Scalar, invalidV, Data.ty]

/-- If there is a value, it is no array or object. -/
def OkScalar (r : Res (FV E)) : Prop := ∀ v, r = .ok v → Scalar v

theorem OkScalar.ok {v : FV E} (h : Scalar v) : OkScalar (.ok v) := by intro w hw; cases hw; exact h

theorem OkScalar.ite {c : Prop} [Decidable c] {a b : Res (FV E)} (ha : OkScalar a) (hb : OkScalar b) : OkScalar (if c then a else b) := by
  split <;> assumption

theorem scalar_ite {c : Prop} [Decidable c] {a b : FV E} (ha : c → Scalar a) (hb : ¬ c → Scalar b) : Scalar (if c then a else b) := by
  split
  · exact ha ‹_›
  · exact hb ‹_›

theorem okScalar_invalid : OkScalar (.ok (invalidV : FV E)) := .ok invalidV_scalar

theorem op2Ints_scalar (a b : Data E) (op : BitVec 64 → BitVec 64 → Res (BitVec 64)) : OkScalar (op2Ints a b op) :=
  .ite okScalar_invalid (by intro v hv; obtain ⟨r, _, hv⟩ := Res.bind_eq_ok.1 hv; cases hv; simp [Scalar, Data.ty])
theorem op2Uints_scalar (a b : Data E) (op : BitVec 64 → BitVec 64 → Res (BitVec 64)) : OkScalar (op2Uints a b op) :=
  .ite okScalar_invalid (by intro v hv; obtain ⟨r, _, hv⟩ := Res.bind_eq_ok.1 hv; cases hv; simp [Scalar, Data.ty])
theorem op2Floats_scalar (a b : Data E) (op : E.F → E.F → E.F) : OkScalar (op2Floats a b op) :=
  .ite okScalar_invalid (.ok (by simp [Scalar, Data.ty]))

theorem divMod_scalar (a b : Data E) (sop uop : BitVec 64 → BitVec 64 → Res (BitVec 64)) {wide fl : Res (FV E)} (hw : OkScalar wide)
    (hf : OkScalar fl) : OkScalar (divMod a b sop uop wide fl) := by
  unfold divMod
  repeat' first | assumption | exact okScalar_invalid | apply op2Ints_scalar | apply op2Uints_scalar | apply op2Floats_scalar | refine OkScalar.ite ?_ ?_

/-- The value of a function is never an array or object. -/
theorem applyFn_scalar (X : Fns E) (f : FName) (vs : List (FV E)) : OkScalar (applyFn X f vs) := by
  have num : ∀ {p : FV E}, p.d.ty.isFloat = true ∨ p.d.ty.isInt = true ∨ p.d.ty.isUInt = true → Scalar p := by
    intro p h
    obtain ⟨d, u⟩ := p
    cases d <;> first | (simp [Scalar, Data.ty]; done) | (simp [Data.ty, Ty.isFloat, Ty.isInt, Ty.isUInt] at h)
  have flt : ∀ x : E.F, Scalar (E := E) ⟨.float x, false⟩ := by intro x; simp [Scalar, Data.ty]
  have int : ∀ x : BitVec 64, Scalar (E := E) ⟨.int x, false⟩ := by intro x; simp [Scalar, Data.ty]
  have hi := invalidV_scalar (E := E)
  have opF : ∀ (a : Data E) op, Scalar (opFloat a op) := fun a op => scalar_ite (fun _ => flt _) fun _ => hi
  have opI : ∀ (a : Data E) op, Scalar (opInt a op) := fun a op => scalar_ite (fun _ => int _) fun _ => hi
  unfold applyFn
  split
  · refine .ok (scalar_ite (fun h => num (Or.inr (Or.inr h))) fun _ => scalar_ite (fun _ => hi) fun _ => scalar_ite (fun _ => flt _) fun _ =>
      scalar_ite (fun _ => int _) fun _ => hi)
  · refine .ok (scalar_ite (fun _ => scalar_ite (fun _ => hi) fun _ => flt _) fun _ => scalar_ite (fun h => num (Or.inr ?_)) fun _ => hi)
    simpa using h
  · rename_i p _
    refine .ok ?_
    have ht : ∀ o : Option E.T, Scalar (timeV o) := by
      intro o; cases o
      · exact hi
      · simp [timeV, Scalar, Data.ty]
    obtain ⟨d, u⟩ := p
    cases d <;> simp only [dateFunc] <;> first | exact hi | exact ht _ | simp [Scalar, Data.ty]
  · exact .ok (scalar_ite (fun _ => scalar_ite (fun _ => hi) fun _ => opI _ _) fun _ => scalar_ite (fun _ => opI _ _) fun _ =>
      scalar_ite (fun _ => opF _ _) fun _ => hi)
  · exact .ok (opF _ _)
  · exact op2Floats_scalar _ _ _
  · unfold mathAdd addMul
    repeat' first | assumption | exact okScalar_invalid | apply op2Ints_scalar | apply op2Uints_scalar | apply op2Floats_scalar | refine OkScalar.ite ?_ ?_
  · unfold mathSub
    repeat' first | assumption | exact okScalar_invalid | apply op2Ints_scalar | apply op2Uints_scalar | apply op2Floats_scalar | refine OkScalar.ite ?_ ?_
  · unfold mathMul addMul
    repeat' first | assumption | exact okScalar_invalid | apply op2Ints_scalar | apply op2Uints_scalar | apply op2Floats_scalar | refine OkScalar.ite ?_ ?_
  · exact .ite (op2Floats_scalar _ _ _) (divMod_scalar _ _ _ _ (op2Floats_scalar _ _ _) (op2Floats_scalar _ _ _))
  · exact divMod_scalar _ _ _ _ okScalar_invalid okScalar_invalid
  · intro v hv; cases hv

/-! ### Operands -/

mutual
  theorem paramVal_sim (X : Fns E) (C : Comp E) {x y : FV E} (h : VSim x y) : ∀ e : Expr E, RSim (paramVal X C x e) (paramVal X C y e)
    | .field _ => h
    | .func n ps => by
      rw [paramVal, paramVal]
      exact (paramVals_sim X C h _ ps).bind fun _ _ hv => applyFn_sim X _ hv
    | .regex v | .pcre v | .time v =>
      RSim.of_eq (by cases v <;> first | (simp only [paramVal]; done) | (rename_i j; cases j <;> simp only [paramVal]))
    | .value _ | .cmp .. | .exist _ | .notExist _ | .not _ | .and _ | .or _ | .loop .. | .tru | .fals => by
      apply RSim.of_eq; simp only [paramVal]
  theorem paramVals_sim (X : Fns E) (C : Comp E) {x y : FV E} (h : VSim x y) : ∀ (k : Nat) (es : Exprs E),
      RelE VSims (paramVals X C x k es) (paramVals X C y k es)
    | 0, _ => by rw [paramVals.eq_def, paramVals.eq_def]; trivial
    | k + 1, .nil => by rw [paramVals.eq_def, paramVals.eq_def]; trivial
    | k + 1, .cons e r => by
      rw [paramVals, paramVals]
      exact (paramVal_sim X C h e).bind fun _ _ hv => (paramVals_sim X C h k r).bind fun _ _ hvs => ⟨hv, hvs⟩
end

/-- Both missing, or both present and related. -/
def Both (R : D → D → Prop) : Option D → Option D → Prop
  | none, none => True
  | some x, some y => R x y
  | _, _ => False

set_option linter.unusedSectionVars false

section
variable {R : D → D → Prop} (hR : Likeness R)
include hR

mutual
  theorem mVal_sim (X : Fns E) (C : Comp E) {env env' : Env} (h : ∀ p, Both R (env p) (env' p)) : ∀ e : Expr E,
      RSim (mVal X C env e) (mVal X C env' e)
    | .field f => by
      rw [mVal, mVal]
      have := h f.path
      cases h1 : env f.path <;> cases h2 : env' f.path <;> rw [h1, h2] at this
      · exact Or.inl rfl
      · exact this.elim
      · exact this.elim
      · exact hR.val this
    | .func n ps => by
      rw [mVal, mVal]
      exact (mVals_sim X C h _ ps).bind fun _ _ hv => applyFn_sim X _ hv
    | .regex v | .pcre v | .time v =>
      RSim.of_eq (by cases v <;> first | (simp only [mVal]; done) | (rename_i j; cases j <;> simp only [mVal]))
    | .value _ | .cmp .. | .exist _ | .notExist _ | .not _ | .and _ | .or _ | .loop .. | .tru | .fals => by
      apply RSim.of_eq; simp only [mVal]
  theorem mVals_sim (X : Fns E) (C : Comp E) {env env' : Env} (h : ∀ p, Both R (env p) (env' p)) : ∀ (k : Nat) (es : Exprs E),
      RelE VSims (mVals X C env k es) (mVals X C env' k es)
    | 0, _ => by rw [mVals.eq_def, mVals.eq_def]; trivial
    | k + 1, .nil => by rw [mVals.eq_def, mVals.eq_def]; trivial
    | k + 1, .cons e r => by
      rw [mVals, mVals]
      exact (mVal_sim X C h e).bind fun _ _ hv => (mVals_sim X C h k r).bind fun _ _ hvs => ⟨hv, hvs⟩
end

end

/-- Constants and functions have no array or object as value. -/
theorem inert_scalar (X : Fns E) (C : Comp E) {e : Expr E} (h : Inert e) : (∀ x, OkScalar (paramVal X C x e)) ∧ ∀ env, OkScalar (mVal X C env e) := by
  have hm : ∀ {α : Type} {f : α → FV E} (o : Option α), (∀ a, Scalar (f a)) → OkScalar (match o with | some a => .ok (f a) | none => .panic) := by
    intro α f o hf
    cases o with
    | none => intro v hv; cases hv
    | some a => exact .ok (hf a)
  cases e with
  | func n ps =>
    refine ⟨fun x => ?_, fun env => ?_⟩
    · rw [paramVal]; intro v hv; obtain ⟨vs, _, hv⟩ := Res.bind_eq_ok.1 hv; exact applyFn_scalar X _ vs v hv
    · rw [mVal]; intro v hv; obtain ⟨vs, _, hv⟩ := Res.bind_eq_ok.1 hv; exact applyFn_scalar X _ vs v hv
  | value g =>
    refine ⟨fun x => ?_, fun env => ?_⟩
    · rw [paramVal]; exact .ok h
    · rw [mVal]; exact .ok h
  | regex g | pcre g | time g =>
    refine ⟨fun x => ?_, fun env => ?_⟩
    all_goals
      first | unfold paramVal | unfold mVal
      split
      all_goals first
        | contradiction
        | (split
           · exact .ok (by simp [Scalar, Data.ty])
           · intro v hv; cases hv)
        | (intro v hv; cases hv; done)
        | (rename_i heq; cases heq; done)
        | skip
  | _ => exact h.elim


theorem scalarIn_inert {d : D} {e : Expr E} (he : ∀ f, e ≠ .field f) (h : ScalarIn d e) : Inert e := by
  cases e <;> first | exact h | exact absurd rfl (he _)

theorem scalarIn_param (X : Fns E) {C : Comp E} {v : Int} {p : Path} {d x : D} {e : Expr E} (hp : Param C v p e) (h : ScalarIn d e)
    (hx : x ∈ walk p d) {a : FV E} (ha : valOf x = .ok a) : OkScalar (paramVal X C a e) := by
  cases e with
  | field f =>
    rw [Param] at hp
    subst hp
    obtain ⟨ty, w, rfl⟩ := h x hx
    rw [paramVal]
    exact .ok (scalar_lit ha)
  | _ => exact (inert_scalar X C (scalarIn_inert (by intro f hf; cases hf) h)).1 a

theorem condHolds_sim (X : Fns E) {C : Comp E} {v : Int} {p : Path} {c : Cmp} {l r : Expr E} (hl : Param C v p l) (hr : Param C v p r) {d x y : D}
    (hx : x ∈ walk p d) (hs : c = .like ∨ ScalarIn d l ∨ ScalarIn d r) (h : RSim (valOf (E := E) x) (valOf y)) :
    condHolds X C c l r x = condHolds X C c l r y := by
  have key : RelE (fun a b : Bool => a = b) (valOf x >>= fun v => paramVal X C v l >>= fun a => paramVal X C v r >>= fun b => .ok (cmpHolds c a b))
      (valOf y >>= fun v => paramVal X C v l >>= fun a => paramVal X C v r >>= fun b => .ok (cmpHolds c a b)) := by
    cases h1 : valOf (E := E) x <;> cases h2 : valOf (E := E) y <;> rw [h1, h2] at h <;> first | exact h.elim | trivial | skip
    rename_i u u'
    rw [Res.bind_ok, Res.bind_ok]
    have e1 := paramVal_sim X C h l
    have e2 := paramVal_sim X C h r
    cases g1 : paramVal X C u l <;> cases g2 : paramVal X C u' l <;> rw [g1, g2] at e1 <;> first | exact e1.elim | trivial | skip
    rw [Res.bind_ok, Res.bind_ok]
    cases k1 : paramVal X C u r <;> cases k2 : paramVal X C u' r <;> rw [k1, k2] at e2 <;> first | exact e2.elim | trivial | skip
    refine cmpHolds_sim e1 e2 (hs.imp_right (Or.imp (fun hs => ?_) fun hs => ?_))
    · exact scalarIn_param X hl hs hx h1 _ g1
    · exact scalarIn_param X hr hs hx h1 _ k1
  unfold condHolds
  generalize (valOf x >>= fun v => paramVal X C v l >>= fun a => paramVal X C v r >>= fun b => Res.ok (cmpHolds c a b)) = a at key
  generalize (valOf y >>= fun v => paramVal X C v l >>= fun a => paramVal X C v r >>= fun b => Res.ok (cmpHolds c a b)) = b at key
  cases a <;> cases b <;> first | exact key | exact key.elim | rfl

section
variable {R : D → D → Prop} (hR : Likeness R)
include hR

/-- The operand stands for no array or object among the fields `env`. -/
def ScalarOf (env : Env) : Expr E → Prop
  | .field f => ∀ x, env f.path = some x → ∃ ty w, x = .lit ty w
  | e => Inert e

omit hR in
theorem scalarOf_val (X : Fns E) (C : Comp E) {env : Env} {e : Expr E} (h : ScalarOf env e) : OkScalar (mVal X C env e) := by
  have hi : (∀ f, e ≠ .field f) → Inert e := by
    intro he
    cases e <;> first | exact h | exact absurd rfl (he _)
  cases e with
  | field f =>
    rw [mVal]
    cases h1 : env f.path with
    | none => rw [fieldVal]; exact .ok (by simp [missingV, Scalar, Data.ty])
    | some x =>
      obtain ⟨ty, w, rfl⟩ := h x h1
      exact fun v hv => scalar_lit hv
  | _ => exact (inert_scalar X C (hi (by intro f hf; cases hf))).2 env

theorem multiHolds_sim (X : Fns E) (C : Comp E) {c : Cmp} {l r : Expr E} {env env' : Env} (h : ∀ p, Both R (env p) (env' p))
    (hs : c = .like ∨ ScalarOf env l ∨ ScalarOf env r) : multiHolds X C c l r env = multiHolds X C c l r env' := by
  have hg : ∀ e : Expr E, isGone env e = isGone env' e := by
    intro e
    cases e with
    | field f =>
      rw [isGone, isGone]
      have := h f.path
      cases h1 : env f.path <;> cases h2 : env' f.path <;> rw [h1, h2] at this <;> first | rfl | exact this.elim
    | _ => rfl
  unfold multiHolds
  rw [hg, hg]
  split
  · rfl
  · have key : RelE (fun a b : Bool => a = b) (mVal X C env l >>= fun a => mVal X C env r >>= fun b => .ok (cmpHolds c a b))
        (mVal X C env' l >>= fun a => mVal X C env' r >>= fun b => .ok (cmpHolds c a b)) := by
      have e1 := mVal_sim hR X C h l
      have e2 := mVal_sim hR X C h r
      cases g1 : mVal X C env l <;> cases g2 : mVal X C env' l <;> rw [g1, g2] at e1 <;> first | exact e1.elim | trivial | skip
      rw [Res.bind_ok, Res.bind_ok]
      cases k1 : mVal X C env r <;> cases k2 : mVal X C env' r <;> rw [k1, k2] at e2 <;> first | exact e2.elim | trivial | skip
      exact cmpHolds_sim e1 e2 (hs.imp_right (Or.imp (fun hs => scalarOf_val X C hs _ g1) fun hs => scalarOf_val X C hs _ k1))
    generalize (mVal X C env l >>= fun a => mVal X C env r >>= fun b => Res.ok (cmpHolds c a b)) = a at key
    generalize (mVal X C env' l >>= fun a => mVal X C env' r >>= fun b => Res.ok (cmpHolds c a b)) = b at key
    cases a <;> cases b <;> first | exact key | exact key.elim | rfl

omit hR in
theorem along_last {l l' : List D} (h : All2 R l l') : ∀ {o o' : Option D}, Both R o o' → Both R (lastOf o l) (lastOf o' l') := by
  induction h with
  | nil => exact id
  | cons hx _ ih => exact fun _ => ih (o := some _) (o' := some _) hx

omit hR in
theorem lastOf_mem {x : D} : ∀ {l : List D} {o : Option D}, lastOf o l = some x → o = some x ∨ x ∈ l
  | [], _, h => Or.inl h
  | y :: l, o, h => by
    rcases lastOf_mem (l := l) (o := some y) h with h | h
    · cases h; exact Or.inr (.head _)
    · exact Or.inr (.tail _ h)


theorem Likeness.scalarOf {x y : D} (h : R x y) : Both R (scalar x) (scalar y) := by
  rw [← (hR.shape h).2.2]
  cases x with
  | lit ty w => cases hR.lit h; exact h
  | _ => trivial

omit hR in
theorem Both.or {a a' b b' : Option D} (h : Both R a a') (h' : Both R b b') : Both R (a.or b) (a'.or b') := by
  cases a <;> cases a' <;> first | exact h.elim | exact h'  | exact h

theorem envR_like {d d' x y : D} (hd : R d d') (h : R x y) (L : List (Path × Bool)) (q p : Path) : Both R (envR d L q x p) (envR d' L q y p) :=
  (along_last (hR.reach false _ _ x y h) (o := none) (o' := none) trivial).or (hR.scalarOf hd)

omit hR in
theorem envR_walk {d x y : D} {L : List (Path × Bool)} {q p : Path} (hx : x ∈ walk q d) (hq : q <+: p) (h : envR d L q x p = some y) :
    y ∈ walk p d ∨ ∃ ty w, y = .lit ty w := by
  obtain ⟨p', rfl⟩ := hq
  rw [envR, List.drop_left] at h
  cases h1 : lastOf none (reach false (belowP q L) p' x) with
  | none =>
    rw [h1, Option.none_or] at h
    cases d with
    | lit ty w => cases h; exact Or.inr ⟨_, _, rfl⟩
    | _ => cases h
  | some z =>
    rw [h1, Option.some_or] at h
    cases h
    rcases lastOf_mem h1 with h2 | h2
    · cases h2
    · rw [walk_append]; exact Or.inl (List.mem_flatMap.2 ⟨x, hx, reach_walk _ _ h2⟩)

omit hR in
theorem All2.with {l l' : List D} {Q : D → Prop} (h : All2 R l l') (hq : ∀ x ∈ l, Q x) : All2 (fun x y => R x y ∧ Q x) l l' := by
  induction h with
  | nil => exact .nil
  | cons h _ ih => exact .cons ⟨h, hq _ (.head _)⟩ (ih fun x hx => hq x (.tail _ hx))

theorem firstArr_like {Q : D → Prop} {l l' : List D} (h : All2 R l l') (hq : ∀ x ∈ l, ∀ y ∈ elements x, Q y) :
    OptAll2 (fun x y => R x y ∧ Q x) (firstArr l) (firstArr l') := by
  induction h with
  | nil => exact .none
  | @cons x y l l' h _ ih =>
    have ih := ih fun x hx => hq x (.tail _ hx)
    cases x with
    | lit ty w => cases hR.lit h; exact ih
    | obj ws ms => obtain ⟨_, _, rfl, _⟩ := hR.obj h; exact ih
    | arr ws es => obtain ⟨_, _, rfl, ha⟩ := hR.arr h; exact .some (ha.with (hq _ (.head _)))

/-! ### Expressions -/

theorem cond_like (X : Fns E) {C : Comp E} {v : Int} {c : Cmp} {l r : Expr E} (hf : Frag C v (.cmp c l r)) {d d' : D} (h : R d d')
    (hs : OneScalar (.cmp c l r) d) (L : List (Path × Bool)) :
    (reach false L (condPath l r) d).head?.map (condHolds X C c l r) = (reach false L (condPath l r) d').head?.map (condHolds X C c l r) := by
  rw [Frag] at hf
  rw [OneScalar] at hs
  exact head_map_agree (fun x y hxy => condHolds_sim X hf.1 hf.2 hxy.2 hs (hR.val hxy.1))
    ((hR.reach false L (condPath l r) d d' h).with fun x hx => reach_walk _ _ hx)

theorem exist_like {d d' : D} (h : R d d') (L : List (Path × Bool)) (p : Path) {β : Type} (b : β) :
    (reach false L p d).head?.map (fun _ => b) = (reach false L p d').head?.map (fun _ => b) :=
  head_map_agree (P := R) (fun _ _ _ => rfl) (hR.reach false L p d d' h)

mutual
  theorem semR_like (X : Fns E) (C : Comp E) : ∀ (e : Expr E) {v : Int} {L : List (Path × Bool)} {d d' : D}, Frag C v e → R d d' → OneScalar e d →
      semR X C L e d = semR X C L e d'
    | .cmp c l r, v, L, d, d', hf, h, hs => by rw [semR, semR]; exact cond_like hR X hf h hs L
    | .exist e, v, L, d, d', hf, h, hs => by rw [semR, semR]; exact exist_like hR h L _ true
    | .notExist e, v, L, d, d', hf, h, hs => by rw [semR, semR]; exact exist_like hR h L _ false
    | .not e, v, L, d, d', hf, h, hs => by
      rw [Frag] at hf; rw [OneScalar] at hs
      rw [semR, semR, semR_like X C e hf h hs]
    | .and es, v, L, d, d', hf, h, hs => by
      rw [Frag] at hf; rw [OneScalar] at hs
      rw [semR, semR]; exact (semRs_like X C es hf h hs).1
    | .or es, v, L, d, d', hf, h, hs => by
      rw [Frag] at hf; rw [OneScalar] at hs
      rw [semR, semR]; exact (semRs_like X C es hf h hs).2
    | .loop m w i s, v, L, d, d', hf, h, hs => by
      rw [Frag] at hf; rw [OneScalar] at hs
      rw [semR, semR]
      refine map_agree (firstArr_like hR (Q := OneScalar s) (hR.reach true L (inPath i) d d' h) fun x hx y hy => hs x (reach_walk _ _ hx) y hy)
        fun l l' hl => holds_agree (fun x y hxy => ?_) m hl
      rw [semR_like X C s hf.2.2.2 hxy.1 hxy.2]
    | .tru, _, _, _, _, _, _, _ | .fals, _, _, _, _, _, _, _ | .value _, _, _, _, _, _, _, _ | .regex _, _, _, _, _, _, _, _ | .pcre _, _, _, _, _, _, _, _
    | .time _, _, _, _, _, _, _, _ | .field _, _, _, _, _, _, _, _ | .func .., _, _, _, _, _, _, _ => by simp [semR]
  theorem semRs_like (X : Fns E) (C : Comp E) : ∀ (es : Exprs E) {v : Int} {L : List (Path × Bool)} {d d' : D}, Frags C v es → R d d' →
      OneScalars es d → semRAll X C L es d = semRAll X C L es d' ∧ semRAny X C L es d = semRAny X C L es d'
    | .nil, _, _, _, _, _, _, _ => by simp [semRAll, semRAny]
    | .cons e .nil, v, L, d, d', hf, h, hs => by
      rw [Frags] at hf; rw [OneScalars] at hs
      simp only [semRAll, semRAny, semR_like X C e hf h hs.1, and_self]
    | .cons e (.cons e' r), v, L, d, d', hf, h, hs => by
      rw [Frags] at hf; rw [OneScalars] at hs
      obtain ⟨h1, h2⟩ := semRs_like X C (.cons e' r) (L := L) hf.2 h hs.2
      have a1 : ∀ d, semRAll X C L (.cons e (.cons e' r)) d = kAnd (semR X C L e d) (semRAll X C L (.cons e' r) d) := fun d => by rw [semRAll]
      have a2 : ∀ d, semRAny X C L (.cons e (.cons e' r)) d = kOr (semR X C L e d) (semRAny X C L (.cons e' r) d) := fun d => by rw [semRAny]
      rw [a1, a1, a2, a2, h1, h2, semR_like X C e hf.1 h hs.1]
      exact ⟨rfl, rfl⟩
end

theorem loop_like (X : Fns E) (C : Comp E) {v : Int} {m : Mode} {w : Int} {i s : Expr E} (hf : Frag C v (.loop m w i s)) {d d' : D} (h : R d d')
    (hs : OneScalar (.loop m w i s) d) (L : List (Path × Bool)) : topR X C L (.loop m w i s) d = topR X C L (.loop m w i s) d' := by
  have := semR_like hR X C (.loop m w i s) (L := L) hf h hs
  rw [semR, semR] at this
  rw [topR, topR, this]

theorem multi_like (X : Fns E) {C : Comp E} {c : Cmp} {l r : Expr E} (hm : several l r = true) (hl : Loose (paths l ++ paths r)) {d d' : D}
    (h : R d d') (hs : OneScalar (.cmp c l r) d) (L : List (Path × Bool)) : multiTopR X C L c l r d = multiTopR X C L c l r d' := by
  rw [OneScalar] at hs
  have hsp := splits_base hm hl
  have := head_map_agree (f := fun x => multiHolds X C (if c = .ne then .eq else c) l r (envR d L (base l r) x))
    (g := fun x => multiHolds X C (if c = .ne then .eq else c) l r (envR d' L (base l r) x))
    (fun x y hxy => multiHolds_sim hR X C (envR_like hR h hxy.1 L (base l r)) (by
      have hsc : ∀ e : Expr E, (∀ p ∈ paths e, p ∈ paths l ++ paths r) → ScalarIn d e → ScalarOf (envR d L (base l r) x) e := by
        intro e hp he
        cases e with
        | field f =>
          intro z hz
          obtain ⟨k, p', hk⟩ := hsp.1 f.path (hp _ (by simp [paths]))
          rcases envR_walk hxy.2 ⟨k :: p', hk.symm⟩ hz with h | h
          · exact he z h
          · exact h
        | _ => exact he
      exact hs.imp (fun hc => by rw [hc]; rfl) (Or.imp (hsc l fun _ => List.mem_append_left _) (hsc r fun _ => List.mem_append_right _))))
    ((hR.reachA L (base l r) d d' h).with fun x hx => reachA_walk _ _ _ _ hx)
  rw [multiTopR, multiTopR, this]

mutual
  theorem top2R_like (X : Fns E) (C : Comp E) {L : List (Path × Bool)} {d d' : D} (h : R d d') : ∀ e : Expr E, Frag2 C e → NoRooted e →
      OneScalar e d → top2R X C L e d = top2R X C L e d'
    | .cmp c l r, hf, _, hs => by
      rw [Frag2] at hf
      rw [top2R, top2R]
      split
      · rename_i hm; rw [if_pos hm] at hf; exact multi_like hR X hm hf.2.2 h hs L
      · rename_i hm; rw [if_neg hm] at hf; rw [topR, topR, cond_like hR X hf h hs L]
    | .exist e, hf, _, hs => by
      have := exist_like hR h L (condPath e e) true
      simp only [top2R, topR]
      cases h1 : (reach false L (condPath e e) d).head? <;> cases h2 : (reach false L (condPath e e) d').head? <;> simp [h1, h2] at this ⊢
    | .notExist e, hf, _, hs => by
      have := exist_like hR h L (condPath e e) true
      simp only [top2R, topR]
      cases h1 : (reach false L (condPath e e) d).head? <;> cases h2 : (reach false L (condPath e e) d').head? <;> simp [h1, h2] at this ⊢
    | .not e, hf, hn, hs => by rw [Frag2] at hf; rw [OneScalar] at hs; rw [top2R, top2R, top2R_like X C h e hf hn hs]
    | .and es, hf, hn, hs => by rw [Frag2] at hf; rw [OneScalar] at hs; rw [top2R, top2R]; exact (top2Rs_like X C h es hf hn hs).1
    | .or es, hf, hn, hs => by rw [Frag2] at hf; rw [OneScalar] at hs; rw [top2R, top2R]; exact (top2Rs_like X C h es hf hn hs).2
    | .loop m w i s, hf, hn, hs => by
      rw [Frag2] at hf
      rw [NoRooted] at hn
      have hn' : ¬ rooted s = true := by rw [hn]; simp
      rw [if_neg hn'] at hf
      rw [top2R, top2R, if_neg hn', if_neg hn']
      exact loop_like hR X C hf h hs L
    | .tru, _, _, _ | .fals, _, _, _ | .value _, _, _, _ | .regex _, _, _, _ | .pcre _, _, _, _ | .time _, _, _, _ | .field _, _, _, _
    | .func .., _, _, _ => by simp [top2R, topR]
  theorem top2Rs_like (X : Fns E) (C : Comp E) {L : List (Path × Bool)} {d d' : D} (h : R d d') : ∀ es : Exprs E, Frag2s C es → NoRootedAll es →
      OneScalars es d → top2RAll X C L es d = top2RAll X C L es d' ∧ top2RAny X C L es d = top2RAny X C L es d'
    | .nil, _, _, _ => ⟨rfl, rfl⟩
    | .cons e .nil, hf, hn, hs => by
      rw [Frag2s] at hf
      simp only [top2RAll, top2RAny, top2R_like X C h e hf hn.1 hs.1, and_self]
    | .cons e (.cons e' r), hf, hn, hs => by
      rw [Frag2s] at hf
      obtain ⟨h1, h2⟩ := top2Rs_like X C (L := L) h (.cons e' r) hf.2 hn.2 hs.2
      have a1 : ∀ d, top2RAll X C L (.cons e (.cons e' r)) d = (top2R X C L e d && top2RAll X C L (.cons e' r) d) := fun d => by rw [top2RAll]
      have a2 : ∀ d, top2RAny X C L (.cons e (.cons e' r)) d = (top2R X C L e d || top2RAny X C L (.cons e' r) d) := fun d => by rw [top2RAny]
      rw [a1, a1, a2, a2, h1, h2, top2R_like X C h e hf.1 hn.1 hs.1]
      exact ⟨rfl, rfl⟩
end

/-- Related documents have the same verdict. -/
theorem verdict_like (X : Fns E) {C : Comp E} {slot0 : Nat} {es : List (Expr E)} {g : Expr E} {gs : List (Expr E)} (hg : genExprs es = g :: gs)
    (hf : ∀ x ∈ g :: gs, Frag2 C x) (hsafe : ∀ x ∈ g :: gs, SafeE x) (hn : ∀ x ∈ g :: gs, NoRooted x) {data data' : List Nat} {d d' : D}
    (hd : Begins data d) (hd' : Begins data' d') (hone : ∀ x ∈ g :: gs, OneScalar x d) (h : R d d') :
    ∃ df, transform C slot0 es = .ok df ∧ ∀ m m', Ready df m → Ready df m' →
      ∃ b m1 m2, run X df m data = .ok (some b, m1) ∧ run X df m' data' = .ok (some b, m2) := by
  obtain ⟨df, h1, h2⟩ := C84_verdict X (slot0 := slot0) hg hf hsafe hd
  obtain ⟨df', h1', h2'⟩ := C84_verdict X (slot0 := slot0) hg hf hsafe hd'
  cases h1.symm.trans h1'
  refine ⟨df, h1, fun m m' hm hm' => ?_⟩
  obtain ⟨m1, e1⟩ := h2 m hm
  obtain ⟨m2, e2⟩ := h2' m' hm'
  refine ⟨_, m1, m2, e1, ?_⟩
  rw [e2]
  have : (g :: gs).any (fun x => top2R X C (mCondsOf (g :: gs)) x d) = (g :: gs).any (fun x => top2R X C (mCondsOf (g :: gs)) x d') := by
    rw [Bool.eq_iff_iff, List.any_eq_true, List.any_eq_true]
    constructor
    · rintro ⟨x, hx, h'⟩; exact ⟨x, hx, by rw [← top2R_like hR X C h x (hf x hx) (hn x hx) (hone x hx)]; exact h'⟩
    · rintro ⟨x, hx, h'⟩; exact ⟨x, hx, by rw [top2R_like hR X C h x (hf x hx) (hn x hx) (hone x hx)]; exact h'⟩
  rw [this]

end

/-! ### Layout -/

theorem along_same_es : ∀ es es' : Es, es.Same es' → All2 D.Same (esList es) (esList es')
  | .nil, .nil, _ => .nil
  | .nil, .cons .., h => h.elim
  | .cons .., .nil, h => h.elim
  | .cons _ _ _ r, .cons _ _ _ r', h => .cons h.1 (along_same_es r r' h.2)

theorem along_same_ms (k : List Nat) : ∀ ms ms' : Ms, ms.Same ms' → All2 D.Same (membersAt k ms) (membersAt k ms')
  | .nil, .nil, _ => .nil
  | .nil, .cons .., h => h.elim
  | .cons .., .nil, h => h.elim
  | .cons kty key _ _ d _ _ r, .cons kty' key' _ _ d' _ _ r', h => by
    have hk : memberKey kty key = memberKey kty' key' := by unfold memberKey; rw [sameKey_bytes h.1]
    rw [membersAt, membersAt, hk]
    split
    · exact .cons h.2.1 (along_same_ms k r r' h.2.2)
    · exact along_same_ms k r r' h.2.2

theorem same_likeness : Likeness D.Same where
  lit := by
    intro ty w y h
    cases y with
    | lit => obtain ⟨rfl, rfl⟩ := h; rfl
    | _ => exact h.elim
  obj := by
    intro ws ms y h
    cases y with
    | obj ws' ms' => exact ⟨_, _, rfl, fun k => along_same_ms k ms ms' h, by cases ms <;> cases ms' <;> first | exact h.elim | simp⟩
    | _ => exact h.elim
  arr := by
    intro ws es y h
    cases y with
    | arr ws' es' => exact ⟨_, _, rfl, along_same_es es es' h⟩
    | _ => exact h.elim

/-- C24 for conditions, comparisons of several fields and loops over elements, on documents on which no two arrays or objects are compared:
whitespace and the spelling of keys do not matter.  (Missing: the others, for which it is false, see `C24_negation`; loops that refer to the
document, bodies that compare several fields of the variable.) -/
theorem C24_several_partial (X : Fns E) (C : Comp E) (slot0 : Nat) {es : List (Expr E)} {g : Expr E} {gs : List (Expr E)}
    (hg : genExprs es = g :: gs) (hf : ∀ x ∈ g :: gs, Frag2 C x) (hsafe : ∀ x ∈ g :: gs, SafeE x) (hn : ∀ x ∈ g :: gs, NoRooted x)
    {data data' : List Nat} {d d' : D} (hd : Begins data d) (hd' : Begins data' d') (hone : ∀ x ∈ g :: gs, OneScalar x d) (hs : d.Same d') :
    ∃ df, transform C slot0 es = .ok df ∧ ∀ m m', Ready df m → Ready df m' →
      ∃ b m1 m2, run X df m data = .ok (some b, m1) ∧ run X df m' data' = .ok (some b, m2) :=
  verdict_like same_likeness X hg hf hsafe hn hd hd' hone hs

/-! ### Order -/

theorem pick_at {k : List Nat} {d : D} {ms rest : Ms} (h : Pick k d ms rest) : (∀ k', k' ≠ k → membersAt k' ms = membersAt k' rest) ∧
    (membersAt k rest = [] → membersAt k ms = [d]) := by
  induction h with
  | @here kty key k1 k2 w1 w2 d ms =>
    refine ⟨fun k' hk => ?_, fun hr => ?_⟩
    · rw [membersAt, if_neg (Ne.symm hk)]
    · rw [membersAt, if_pos rfl, hr]
  | @there k d kty key k1 k2 w1 w2 d1 ms rest _ ih =>
    refine ⟨fun k' hk => ?_, fun hr => ?_⟩
    · rw [membersAt, membersAt, ih.1 k' hk]
    · rw [membersAt] at hr ⊢
      split at hr
      · cases hr
      · rename_i hne
        rw [if_neg hne]; exact ih.2 hr

theorem at_none {k : List Nat} : ∀ {ms : Ms}, k ∉ ms.keys → membersAt k ms = []
  | .nil, _ => rfl
  | .cons kty key _ _ d _ _ r, h => by
    rw [Ms.keys, List.mem_cons] at h
    rw [membersAt, if_neg fun hk => h (Or.inl hk.symm)]
    exact at_none fun hk => h (Or.inr hk)

theorem along_reord_ms (k : List Nat) : ∀ {ms ms' : Ms}, ReordM ms ms' → ms.Distinct →
    All2 (fun d d' => Reord d d' ∧ d.Distinct) (membersAt k ms) (membersAt k ms')
  | _, _, .nil, _ => .nil
  | _, _, .cons (kty := kty) (key := key) (ms := ms) (rest := rest) hp hd hm, h => by
    rw [Ms.Distinct] at h
    have ih := along_reord_ms k hm h.2.2
    rw [membersAt]
    split
    · rename_i hk
      subst hk
      rw [at_none h.1] at ih ⊢
      have hr : membersAt (memberKey kty key) rest = [] := by
        generalize membersAt (memberKey kty key) rest = l at ih
        cases ih; rfl
      rw [(pick_at hp).2 hr]
      exact .cons ⟨hd, h.2.1⟩ .nil
    · rename_i hk
      rw [(pick_at hp).1 k (Ne.symm hk)]
      exact ih

theorem along_reord_es : ∀ {es es' : Es}, ReordE es es' → es.Distinct → All2 (fun d d' => Reord d d' ∧ d.Distinct) (esList es) (esList es')
  | _, _, .nil, _ => .nil
  | _, _, .cons hd he, h => .cons ⟨hd, h.1⟩ (along_reord_es he h.2)

theorem reord_likeness : Likeness fun d d' => Reord d d' ∧ d.Distinct where
  lit := by rintro ty w y ⟨h, _⟩; cases h; rfl
  obj := by
    rintro ws ms y ⟨h, hd⟩
    cases h with
    | @obj _ ws' _ ms' hm =>
      refine ⟨_, _, rfl, fun k => along_reord_ms k hm hd, ?_⟩
      cases hm with
      | nil => simp
      | cons hp _ _ => exact ⟨fun h => (by cases h), fun h => (pick_nil (h ▸ hp)).elim⟩
  arr := by
    rintro ws es y ⟨h, hd⟩
    cases h with
    | arr he => exact ⟨_, _, rfl, along_reord_es he hd⟩

/-- C26 for conditions, comparisons of several fields and loops over elements, on documents without repeated keys on which no two arrays or
objects are compared: the order of members does not matter.  (Missing: the others, for which it is false, see `C26_negation`; loops that refer
to the document, bodies that compare several fields of the variable.) -/
theorem C26_several_partial (X : Fns E) (C : Comp E) (slot0 : Nat) {es : List (Expr E)} {g : Expr E} {gs : List (Expr E)}
    (hg : genExprs es = g :: gs) (hf : ∀ x ∈ g :: gs, Frag2 C x) (hsafe : ∀ x ∈ g :: gs, SafeE x) (hn : ∀ x ∈ g :: gs, NoRooted x)
    {data data' : List Nat} {d d' : D} (hd : Begins data d) (hd' : Begins data' d') (hone : ∀ x ∈ g :: gs, OneScalar x d) (hdis : d.Distinct)
    (hs : Reord d d') :
    ∃ df, transform C slot0 es = .ok df ∧ ∀ m m', Ready df m → Ready df m' →
      ∃ b m1 m2, run X df m data = .ok (some b, m1) ∧ run X df m' data' = .ok (some b, m2) :=
  verdict_like reord_likeness X hg hf hsafe hn hd hd' hone ⟨hs, hdis⟩

/-- Comparisons of the fields of `{"a":1,"b":1}`, and of a sum of them. -/
theorem demoPairs_one : ∀ x ∈ demoPairs, OneScalar x docAB := by
  have hA : ScalarIn docAB fieldA := by
    show ∀ x ∈ walk [[97]] docAB, _
    rw [show walk [[97]] docAB = [.lit .integer [49]] from rfl]
    intro x hx
    rw [List.mem_singleton] at hx
    exact ⟨_, _, hx⟩
  intro x hx
  simp only [demoPairs, List.mem_cons, List.not_mem_nil, or_false] at hx
  rcases hx with rfl | rfl
  · exact ⟨Or.inr (Or.inl hA), Or.inr (Or.inl trivial), trivial⟩
  · exact Or.inr (Or.inl hA)

theorem demoPairs_noRooted : ∀ x ∈ demoPairs, NoRooted x := by simp [demoPairs, NoRooted, NoRootedAll]

/-- `a = b AND a + b >= 1` and `a != b`, on `{"a":1,"b":1}` and `{"b":1,"a":1}`. -/
example : ∃ df, transform demoComp 0 demoPairs = .ok df ∧ ∀ m m', Ready df m → Ready df m' →
    ∃ b m1 m2, run demoFns df m textAB = .ok (some b, m1) ∧ run demoFns df m' textBA = .ok (some b, m2) :=
  C26_several_partial demoFns demoComp 0 (es := demoPairs) rfl (fun x hx => (demoPairs_frag x hx).1) (fun x hx => (demoPairs_frag x hx).2.1)
    demoPairs_noRooted docAB_text docBA_text demoPairs_one (by simp [docAB, D.Distinct, Ms.Distinct, Ms.keys]; decide)
    (.obj (.cons (.there .here) .lit (.cons .here .lit .nil)))

/-- The same on `{"a":1,"b":1}` and `{ "a" : 1 , "b":1}`. -/
example : ∃ df, transform demoComp 0 demoPairs = .ok df ∧ ∀ m m', Ready df m → Ready df m' →
    ∃ b m1 m2, run demoFns df m textAB = .ok (some b, m1) ∧
      run demoFns df m' [123, 32, 34, 97, 34, 32, 58, 32, 49, 32, 44, 32, 34, 98, 34, 58, 49, 125] = .ok (some b, m2) :=
  C24_several_partial demoFns demoComp 0 (es := demoPairs) rfl (fun x hx => (demoPairs_frag x hx).1) (fun x hx => (demoPairs_frag x hx).2.1)
    demoPairs_noRooted docAB_text
    (d' := .obj [32] (.cons .string [34, 97, 34] [32] [32] (.lit .integer [49]) [32] [32] (.cons .string [34, 98, 34] [] [] (.lit .integer [49]) [] [] .nil)))
    ⟨by simp [D.WF, Ms.WF, Token.IsWs, text_a, text_b, text_1, Tok.isLiteral], [], [], by simp [Token.IsWs], trivial, rfl⟩
    demoPairs_one (by simp [docAB, D.Same, Ms.Same, Token.SameKey])

end Verif.Transform
