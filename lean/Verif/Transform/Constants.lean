import Verif.Transform.Theorems

/-!
# Constants among the expressions of a matcher (C82)

Proofs about `Transform` (transform.go:586-654) and `Match` (fastMatcher.go:811-833) for lists of expressions with `TrueExpr` and `FalseExpr`.
-/

namespace Verif.Transform
open Verif.FastVal Verif.Expr Verif.Match
open Verif.Token (D)

variable {E : Ext}

/-! ### Specification -/

def constant : Expr E → Option Bool
  | .tru => some true
  | .fals => some false
  | _ => none

/-- The truth of an expression that may be a constant. -/
def truthC (X : Fns E) (C : Comp E) (e : Expr E) (d : D) : Bool := (constant e).getD (truth X C e d)

/-- C82: a matcher for several expressions accepts the documents on which one of them is true. -/
def C82_full : Prop := ∀ (E : Ext) (X : Fns E) (C : Comp E) (es : List (Expr E)),
  (∀ e ∈ es, constant e = none → Frag C 0 e ∧ SafeE e ∧ LoopFree e) → ∀ (data : List Nat) (d : D), IsText data d →
  RegularAt (condsOf (es.filter fun e => (constant e).isNone)) d →
  ∃ df, transform C 0 es = .ok df ∧ ∀ m, Ready df m → ∃ m', run X df m data = .ok (some (es.any fun e => truthC X C e d), m')

/-! ### Theorems -/

theorem genExprs_filter : ∀ es : List (Expr E), genExprs es = es.filter fun e => (constant e).isNone
  | [] => rfl
  | e :: es => by
    have ih := genExprs_filter es
    cases e <;> simp [genExprs, constant, ih]

theorem any_constants (X : Fns E) (C : Comp E) (d : D) : ∀ es : List (Expr E), (∀ e ∈ es, constant e ≠ some true) →
    (es.any fun e => truthC X C e d) = (es.filter fun e => (constant e).isNone).any fun e => truth X C e d
  | [], _ => rfl
  | e :: es, h => by
    have ih := any_constants X C d es fun x hx => h x (List.mem_cons_of_mem _ hx)
    have he := h e (List.mem_cons_self ..)
    rw [List.any_cons, ih, List.filter_cons]
    cases hc : constant e with
    | none => simp [truthC, hc]
    | some b =>
      cases b with
      | true => exact absurd hc he
      | false => simp [truthC, hc]

/-- The constants have no influence on the verdict, if there is another expression. -/
theorem C82_ignored_partial (X : Fns E) (C : Comp E) (es : List (Expr E)) (hf : ∀ e ∈ es, constant e = none → Frag C 0 e ∧ SafeE e ∧ LoopFree e)
    (hn : ∃ e ∈ es, constant e = none) {data : List Nat} {d : D} (hd : Begins data d)
    (hreg : RegularAt (condsOf (es.filter fun e => (constant e).isNone)) d) :
    ∃ df, transform C 0 es = .ok df ∧ ∀ m, Ready df m →
      ∃ m', run X df m data = .ok (some ((es.filter fun e => (constant e).isNone).any fun e => truth X C e d), m') := by
  obtain ⟨e0, he0, hc0⟩ := hn
  cases hg : genExprs es with
  | nil =>
    rw [genExprs_filter, List.filter_eq_nil_iff] at hg
    exact absurd (by simp [hc0]) (hg e0 he0)
  | cons g gs =>
    have hgf := hg
    rw [genExprs_filter] at hgf
    have hm : ∀ x ∈ g :: gs, Frag C 0 x ∧ SafeE x ∧ LoopFree x := by
      intro x hx
      rw [← hgf, List.mem_filter] at hx
      exact hf x hx.1 (by simpa using hx.2)
    rw [hgf] at hreg ⊢
    exact C22_match_partial X C 0 hg (fun x hx => (hm x hx).1) (fun x hx => (hm x hx).2.1) (fun x hx => (hm x hx).2.2) hd hreg

/-- C82 without `TRUE` among the expressions, and with another one. -/
theorem C82_false_partial (X : Fns E) (C : Comp E) (es : List (Expr E)) (hf : ∀ e ∈ es, constant e = none → Frag C 0 e ∧ SafeE e ∧ LoopFree e)
    (hn : ∃ e ∈ es, constant e = none) (ht : ∀ e ∈ es, constant e ≠ some true) {data : List Nat} {d : D} (hd : Begins data d)
    (hreg : RegularAt (condsOf (es.filter fun e => (constant e).isNone)) d) :
    ∃ df, transform C 0 es = .ok df ∧ ∀ m, Ready df m → ∃ m', run X df m data = .ok (some (es.any fun e => truthC X C e d), m') := by
  rw [any_constants X C d es ht]
  exact C82_ignored_partial X C es hf hn hd hreg

/-- With `TRUE` among the expressions, the verdict is that of C82 only if another expression is true. -/
theorem C82_true_partial (X : Fns E) (C : Comp E) (es : List (Expr E)) (hf : ∀ e ∈ es, constant e = none → Frag C 0 e ∧ SafeE e ∧ LoopFree e)
    (hn : ∃ e ∈ es, constant e = none) (ht : .tru ∈ es) {data : List Nat} {d : D} (hd : Begins data d)
    (hreg : RegularAt (condsOf (es.filter fun e => (constant e).isNone)) d) :
    ∃ df, transform C 0 es = .ok df ∧ ∀ m, Ready df m → ∃ v m', run X df m data = .ok (some v, m') ∧
      (v = (es.any fun e => truthC X C e d) ↔ ∃ e ∈ es, constant e = none ∧ truth X C e d = true) := by
  obtain ⟨df, h1, h2⟩ := C82_ignored_partial X C es hf hn hd hreg
  refine ⟨df, h1, fun m hm => ?_⟩
  obtain ⟨m', h⟩ := h2 m hm
  refine ⟨_, m', h, ?_⟩
  have ha : (es.any fun e => truthC X C e d) = true := List.any_eq_true.2 ⟨.tru, ht, rfl⟩
  rw [ha, List.any_eq_true]
  constructor
  · rintro ⟨e, he, hv⟩
    rw [List.mem_filter] at he
    exact ⟨e, he.1, by simpa using he.2, hv⟩
  · rintro ⟨e, he, hc, hv⟩
    exact ⟨e, List.mem_filter.2 ⟨he, by simp [hc]⟩, hv⟩

/-- A matcher for constants only is compiled, and crashes on every text that begins with a token. -/
theorem C82_crash (X : Fns E) (C : Comp E) (slot0 : Nat) (es : List (Expr E)) (hc : ∀ e ∈ es, constant e ≠ none) :
    ∃ df, transform C slot0 es = .ok df ∧ ∀ (m : M) (data : List Nat), data ≠ [] → (Token.step ⟨data, 0⟩).1 ≠ none → run X df m data = .panic := by
  have hg : genExprs es = [] := by
    rw [genExprs_filter, List.filter_eq_nil_iff]
    intro e he
    simpa using hc e he
  refine ⟨_, by rw [transform, hg], fun m data hd hs => ?_⟩
  rw [run]
  dsimp only
  rw [if_neg hd]
  split
  · rename_i heq
    rw [heq] at hs
    exact absurd rfl hs
  · rfl

/-- … in particular on every document. -/
theorem C82_documents_crash (X : Fns E) (C : Comp E) (slot0 : Nat) (es : List (Expr E)) (hc : ∀ e ∈ es, constant e ≠ none) :
    ∃ df, transform C slot0 es = .ok df ∧ ∀ (m : M) (data : List Nat) (d : D), Begins data d → run X df m data = .panic := by
  obtain ⟨df, h1, h2⟩ := C82_crash X C slot0 es hc
  refine ⟨df, h1, fun m data d hd => ?_⟩
  obtain ⟨ws, ws', h, e, hf⟩ := hd.root
  have hne : data ≠ [] := by
    intro h0; rw [h0] at e; simp at e
    have := D.text_pos d hd.wf; simp [e.2.1] at this
  exact h2 m data hne (by rw [step_head d hd.wf h hf e]; simp)

/-! ### The negation -/

/-- `TRUE` and `b = 1` -/
def demoConst : List (Expr demoExt) := [.tru, .cmp .eq fieldB one]

theorem demoConst_frag : ∀ e ∈ demoConst, constant e = none → Frag demoComp 0 e ∧ SafeE e ∧ LoopFree e := by
  intro x hx hc
  rcases List.mem_cons.1 hx with rfl | hx
  · cases hc
  · rcases List.mem_singleton.1 hx with rfl
    simp [Frag, Param, condPath, fieldPath, fieldB, one, SafeE, SafeParam, LoopFree]

/-- C82 as stated is false: `TRUE` and `b = 1` do not match `{"a":1}`. -/
theorem C82_negation : ¬ C82_full := by
  intro h
  have hreg : RegularAt (condsOf (demoConst.filter fun e => (constant e).isNone)) docA1 := regular_of_check (by decide)
  obtain ⟨df, h1, h2⟩ := h demoExt demoFns demoComp demoConst demoConst_frag demoDoc docA1 docA1_exact hreg
  obtain ⟨df', h1', h2'⟩ := C82_true_partial demoFns demoComp demoConst demoConst_frag ⟨_, List.mem_cons_of_mem _ (List.mem_cons_self ..), rfl⟩
    (List.mem_cons_self ..) docA1_text hreg
  rw [h1] at h1'
  cases h1'
  obtain ⟨m', h3⟩ := h2 (newMatcher df) (ready_new df)
  obtain ⟨v, m'', h4, h5⟩ := h2' (newMatcher df) (ready_new df)
  rw [h3] at h4
  cases h4
  obtain ⟨e, he, hc, ht⟩ := h5.1 rfl
  rcases List.mem_cons.1 he with rfl | he
  · cases hc
  · rcases List.mem_singleton.1 he with rfl
    have : truth demoFns demoComp (.cmp .eq fieldB one) docA1 = false := by decide +kernel
    rw [this] at ht
    cases ht

/-! ### Examples -/

example : ∃ df, transform demoComp 0 [.fals, .cmp .eq fieldA one] = .ok df ∧ ∀ m, Ready df m → ∃ m', run demoFns df m demoDoc = .ok (some true, m') := by
  obtain ⟨df, h1, h2⟩ := C82_false_partial demoFns demoComp [.fals, .cmp .eq fieldA one] (by
      intro x hx hc
      rcases List.mem_cons.1 hx with rfl | hx
      · cases hc
      · rcases List.mem_singleton.1 hx with rfl
        simp [Frag, Param, condPath, fieldPath, fieldA, one, SafeE, SafeParam, LoopFree])
    ⟨_, List.mem_cons_of_mem _ (List.mem_cons_self ..), rfl⟩ (by simp [constant]) docA1_text
    (regular_of_check (by decide))
  refine ⟨df, h1, fun m hm => ?_⟩
  have : (([.fals, .cmp .eq fieldA one] : List (Expr demoExt)).any fun e => truthC demoFns demoComp e docA1) = true := by decide +kernel
  rw [← this]
  exact h2 m hm

example : ∃ df, transform demoComp 0 [.tru] = .ok df ∧ ∀ m, run demoFns df m demoDoc = .panic :=
  let ⟨df, h1, h2⟩ := C82_documents_crash demoFns demoComp 0 [.tru] (by simp [constant])
  ⟨df, h1, fun m => h2 m _ _ docA1_text⟩

end Verif.Transform
