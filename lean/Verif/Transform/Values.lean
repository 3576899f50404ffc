import Verif.Transform.Keys
import Verif.FastVal.Kinds

/-!
# Comparisons of a field with a constant, in terms of the document (C48)
-/

namespace Verif.Transform
open Verif.FastVal Verif.Match Verif.Expr
open Verif.Token (D Es Ms Tok TokText)
open Verif.Lit (Ch litText litTok chBytes intVal)

variable {E : Ext}

/-! ### Specification -/

/-- The value a part of a document denotes.  (Integers outside the range of 64 bits wrap; see C15.) -/
inductive Denotes : D → DocV E → Prop where
  | null (w : List Nat) : Denotes (.lit .null w) .null
  | tru (w : List Nat) : Denotes (.lit .tru w) (.bool true)
  | fals (w : List Nat) : Denotes (.lit .fals w) (.bool false)
  | int (w : List Nat) : TokText .integer w → Denotes (.lit .integer w) (.int (BitVec.ofInt 64 (intVal w)))
  | num (w : List Nat) : Denotes (.lit .number w) (.float (E.parseFloat w).1)
  | str (cs : List Ch) : (∀ c ∈ cs, c.WF) → Denotes (.lit (litTok cs) (litText cs)) (.str (chBytes cs))
  | arr (ws : List Nat) (es : Es) : Denotes (.arr ws es) (.arr (D.arr ws es).text)
  | obj (ws : List Nat) (ms : Ms) : Denotes (.obj ws ms) (.obj (D.obj ws ms).text)

/-- The constants of expressions that are compared by the tables of C45. -/
def conOf : GoVal E → Option (ConV E)
  | .json .null => some .null
  | .json (.bool b) => some (.bool b)
  | .json (.num f) => some (.float f)
  | .json (.str s) => some (.str (E.quote s))
  | .int v => some (.int v)
  | .uint v => some (.uint v)
  | .time t => some (.time t)
  | _ => none

/-- Whether a comparison with this outcome holds.  Order comparisons go by the order alone, even if it is not meaningful. -/
def outcome : Cmp → Int × Bool → Bool
  | .eq, r => r.2 && decide (r.1 = 0)
  | .ne, r => !(r.2 && decide (r.1 = 0))
  | .lt, r => decide (r.1 < 0)
  | .le, r => decide (r.1 ≤ 0)
  | .gt, r => decide (0 < r.1)
  | .ge, r => decide (0 ≤ r.1)
  | .like, _ => false

/-! ### C48 -/

theorem valOf_denotes {x : D} {y : DocV E} (h : Denotes x y) : valOf (E := E) x = .ok ⟨y.data, false⟩ := by
  cases h with
  | null | tru | fals | num | arr | obj => rfl
  | int w ht => rw [valOf, parseLit, Lit.C15_int_mod w ht]; rfl
  | str cs hw =>
    have := Lit.decode_spelled cs hw
    rw [valOf]
    unfold Lit.decodeStr at this
    by_cases hc : litTok cs = .escString
    · rw [hc] at this ⊢
      rw [parseLit]; rw [if_pos rfl] at this; simp only [this]; rfl
    · have hc' : litTok cs = .string := by
        unfold litTok at hc ⊢
        split
        · rename_i h'; rw [if_pos h'] at hc; exact absurd rfl hc
        · rfl
      rw [hc'] at this ⊢
      rw [parseLit]; rw [if_neg (by decide)] at this; simp only [this]; rfl

theorem constOf_con {g : GoVal E} {k : ConV E} (h : conOf g = some k) : constOf g = ⟨k.data, true⟩ := by
  match g, h with
  | .json .null, h | .json (.bool true), h | .json (.bool false), h | .json (.num _), h | .json (.str _), h | .int _, h | .uint _, h
  | .time _, h => cases h; rfl

theorem holds_outcome (c : Cmp) (hc : c ≠ .like) (a b : FV E) : cmpHolds c a b = outcome c (compare a b) := by
  cases c with
  | like => exact absurd rfl hc
  | eq => simp only [cmpHolds, equals, outcome]; cases (compare a b).2 <;> simp
  | ne => simp only [cmpHolds, equals, outcome]; cases (compare a b).2 <;> simp
  | _ => rfl

/-- **C48.** Comparing a field with a constant is comparing the value it has in the document with the constant, by the tables. -/
theorem C48_condition (X : Fns E) (C : Comp E) {c : Cmp} (hc : c ≠ .like) (f : Field) {g : GoVal E} {k : ConV E} (hk : conOf g = some k)
    {x : D} {y : DocV E} (hy : Denotes x y) : condHolds X C c (.field f) (.value g) x = outcome c (docCon y k) := by
  simp only [condHolds, valOf_denotes hy, Res.bind_ok, paramVal, constOf_con hk]
  rw [holds_outcome c hc, C45_constant]

theorem C48_condition_left (X : Fns E) (C : Comp E) {c : Cmp} (hc : c ≠ .like) (f : Field) {g : GoVal E} {k : ConV E} (hk : conOf g = some k)
    {x : D} {y : DocV E} (hy : Denotes x y) (hm : mixed y k = false) :
    condHolds X C c (.value g) (.field f) x = outcome c (flip (docCon y k)) := by
  simp only [condHolds, valOf_denotes hy, Res.bind_ok, paramVal, constOf_con hk]
  rw [holds_outcome c hc, C45_constant_left y k hm]

theorem C48_pattern (X : Fns E) (C : Comp E) (f : Field) {s : List Nat} {r : E.R} (hr : C.regexp s = some r)
    {x : D} {y : DocV E} (hy : Denotes x y) : condHolds X C .like (.field f) (.regex (.json (.str s))) x =
      match y with
      | .str t => E.reMatch r (E.quote t)
      | _ => false := by
  simp only [condHolds, valOf_denotes hy, Res.bind_ok, paramVal, hr, cmpHolds]
  rw [C46_document]
  cases y <;> rfl

/-- **C48.** The whole matcher, for one comparison of a field with a constant: a missing field satisfies only `!=`. -/
theorem C48_match (X : Fns E) (C : Comp E) (slot0 : Nat) {c : Cmp} (hc : c ≠ .like) (p : Path) {g : GoVal E} {k : ConV E}
    (hk : conOf g = some k) {data : List Nat} {r : D} (hr : Begins data r) (hne : ∀ x ∈ walk p r, ¬ EmptyArr x) :
    ∃ df, transform C slot0 [.cmp c (.field ⟨0, p⟩) (.value g)] = .ok df ∧ ∀ m, Ready df m →
      (walk p r = [] → ∃ m', run X df m data = .ok (some (decide (c = .ne)), m')) ∧
      (∀ x l y, walk p r = x :: l → Denotes x y → ∃ m', run X df m data = .ok (some (outcome c (docCon y k)), m')) := by
  have hp : condPath (.field ⟨0, p⟩) (.value g : Expr E) = p := by simp [condPath, fieldPath]
  obtain ⟨df, h1, h2⟩ := C23_loops_partial X C slot0 (es := [.cmp c (.field ⟨0, p⟩) (.value g)]) (g := .cmp c (.field ⟨0, p⟩) (.value g))
    (gs := []) (by simp [genExprs]) (by simp [Frag, Param, hp]) (by simp [SafeE, SafeParam]) hr
    ⟨⟨by
      intro q hq x hx he
      simp only [condsOf, List.flatMap_cons, List.flatMap_nil, List.append_nil, conds, hp, List.mem_singleton, Prod.mk.injEq, and_true] at hq
      subst hq
      exact absurd he (hne x hx), by
      intro q hq x hx he k p' b hc
      simp only [condsOf, List.flatMap_cons, List.flatMap_nil, List.append_nil, conds, hp, List.mem_singleton, Prod.mk.injEq, and_true] at hq hc
      subst hq
      have := congrArg List.length hc.1
      simp at this, by
      intro q hq
      simp [condsOf, conds] at hq⟩, by simp [Inner]⟩
  refine ⟨df, h1, fun m hm => ?_⟩
  obtain ⟨m', h2⟩ := h2 m hm
  simp only [List.any_cons, List.any_nil, Bool.or_false, top, hp] at h2
  refine ⟨fun hw => ⟨m', by rw [h2, hw]; rfl⟩, fun x l y hw hy => ⟨m', ?_⟩⟩
  rw [h2, hw]
  simp only [List.head?_cons, Option.map_some, Option.getD_some]
  rw [C48_condition X C hc _ hk hy]

/-- `$doc.a <= 2` on `{"a":1}`. -/
example : ∃ df, transform demoComp 0 [.cmp .le (.field ⟨0, [[97]]⟩) (.value (.int 2#64))] = .ok df ∧ ∀ m, Ready df m →
    ∃ m', run demoFns df m demoDoc = .ok (some true, m') := by
  have hw : walk [[97]] docA1 = [.lit .integer [49]] := by rfl
  obtain ⟨df, h1, h2⟩ := C48_match demoFns demoComp 0 (c := .le) (by decide) [[97]] (g := .int 2#64) (k := .int 2#64) rfl docA1_text
    (by rw [hw]; intro x hx; rw [List.mem_singleton] at hx; subst hx; exact fun h => h)
  refine ⟨df, h1, fun m hm => ?_⟩
  obtain ⟨m', h⟩ := (h2 m hm).2 _ _ _ hw (.int [49] text_1)
  exact ⟨m', by rw [h]; rfl⟩

example : Denotes (E := demoExt) (.lit (litTok spellA) (litText spellA)) (.str [97]) := .str spellA spellA_WF

example : mixed (.int 1#64 : DocV demoExt) (.int 2#64) = false ∧ conOf (.int 2#64 : GoVal demoExt) = some (.int 2#64) := ⟨rfl, rfl⟩

end Verif.Transform
