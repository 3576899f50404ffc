import Verif.Transform.ReachMulti
import Verif.Transform.ElementAny
import Verif.Transform.LikeElements
import Verif.Match.FirstToken

/-!
# Bytes behind the document, for compiled expressions
-/

set_option linter.unusedSectionVars false

namespace Verif.Transform
open Verif.FastVal Verif.Match Verif.Expr
open Verif.Token (D Es Ms Tok IsWs)

variable {E : Ext}

/-- The full statement: whatever the expression, the bytes behind the document do not matter. -/
def C93_full : Prop :=
  ∀ (E : Ext) (X : Fns E) (C : Comp E) (slot0 : Nat) (es : List (Expr E)) (df : Def E), transform C slot0 es = .ok df →
    ∀ (d : D), d.WF → ∀ ws ws' post post', IsWs ws → IsWs ws' → d.Follows post → d.Follows post' → ∀ m m', Ready df m → Ready df m' →
    ∀ b n, run X df m (ws ++ (d.text ++ post)) = .ok (some b, n) → ∃ n', run X df m' (ws' ++ (d.text ++ post')) = .ok (some b, n')

/-- Conditions on and comparisons of fields, and loops whose body compares the element with constants or with fields of the document.
(Missing from `C93_full`: nested loops; functions of constants.) -/
theorem C93_fields_partial (X : Fns E) (C : Comp E) (slot0 : Nat) {es : List (Expr E)} {g : Expr E} {gs : List (Expr E)} (hg : genExprs es = g :: gs)
    (h : ∀ x ∈ g :: gs, Frag2 C x) (hsafe : ∀ x ∈ g :: gs, SafeE x) {d : D} (hd : d.WF) {ws ws' post post' : List Nat} (h1 : IsWs ws)
    (h2 : IsWs ws') (hf : d.Follows post) (hf' : d.Follows post') :
    ∃ df, transform C slot0 es = .ok df ∧ ∀ m m', Ready df m → Ready df m' →
      ∃ b n n', run X df m (ws ++ (d.text ++ post)) = .ok (some b, n) ∧ run X df m' (ws' ++ (d.text ++ post')) = .ok (some b, n') := by
  obtain ⟨df, e1, r1⟩ := C84_verdict X (slot0 := slot0) hg h hsafe (data := ws ++ (d.text ++ post)) ⟨hd, ws, post, h1, hf, rfl⟩
  obtain ⟨df', e2, r2⟩ := C84_verdict X (slot0 := slot0) hg h hsafe (data := ws' ++ (d.text ++ post')) ⟨hd, ws', post', h2, hf', rfl⟩
  rw [e1] at e2
  cases e2
  refine ⟨df, e1, fun m m' hm hm' => ?_⟩
  obtain ⟨n, a1⟩ := r1 m hm
  obtain ⟨n', a2⟩ := r2 m' hm'
  exact ⟨_, n, n', a1, a2⟩

/-- Loops whose body compares fields of the element with each other. -/
theorem C93_elements_partial (X : Fns E) (C : Comp E) (slot0 : Nat) {es : List (Expr E)} {g : Expr E} {gs : List (Expr E)} (hg : genExprs es = g :: gs)
    (h : ∀ x ∈ g :: gs, EFrag C x) (hsafe : ∀ x ∈ g :: gs, SafeE x) {d : D} (hd : d.WF) {ws ws' post post' : List Nat} (h1 : IsWs ws)
    (h2 : IsWs ws') (hf : d.Follows post) (hf' : d.Follows post') :
    ∃ df, transform C slot0 es = .ok df ∧ ∀ m m', Ready df m → Ready df m' →
      ∃ b n n', run X df m (ws ++ (d.text ++ post)) = .ok (some b, n) ∧ run X df m' (ws' ++ (d.text ++ post')) = .ok (some b, n') := by
  obtain ⟨df, e1, r1⟩ := C85_verdict X C slot0 hg h hsafe (data := ws ++ (d.text ++ post)) ⟨hd, ws, post, h1, hf, rfl⟩
  obtain ⟨df', e2, r2⟩ := C85_verdict X C slot0 hg h hsafe (data := ws' ++ (d.text ++ post')) ⟨hd, ws', post', h2, hf', rfl⟩
  rw [e1] at e2
  cases e2
  refine ⟨df, e1, fun m m' hm hm' => ?_⟩
  obtain ⟨n, a1⟩ := r1 m hm
  obtain ⟨n', a2⟩ := r2 m' hm'
  exact ⟨_, n, n', a1, a2⟩

/-- `{"a":1,"b":1}` alone and followed by `,]{`. -/
example : ∃ df, transform demoComp 0 demoPairs = .ok df ∧ ∀ m m', Ready df m → Ready df m' →
    ∃ b n n', run demoFns df m (docAB1.text ++ []) = .ok (some b, n) ∧ run demoFns df m' ([32] ++ (docAB1.text ++ [44, 93, 123])) = .ok (some b, n') :=
  C93_fields_partial demoFns demoComp 0 rfl (fun x hx => (demoPairs_frag x hx).1) (fun x hx => (demoPairs_frag x hx).2.1) docAB1_text.wf (ws := [])
    (ws' := [32]) (by simp [IsWs]) (by simp [IsWs]) trivial trivial

/-- `EVERY x IN a SATISFIES x.a = x.b AND x.a = 1` on a document alone and followed by a quotation mark. -/
example : ∃ df, transform demoComp 0 [.loop .every 1 fieldA bodyAB] = .ok df ∧ ∀ m m', Ready df m → Ready df m' →
    ∃ b n n', run demoFns df m (docPairs.text ++ []) = .ok (some b, n) ∧ run demoFns df m' (docPairs.text ++ [34]) = .ok (some b, n') :=
  C93_elements_partial demoFns demoComp 0 rfl (fun x hx => by rw [List.mem_singleton.1 hx]; exact ⟨rfl, bodyAB_body⟩)
    (fun x hx => by rw [List.mem_singleton.1 hx]; simp [SafeE, SafeEs, SafeParam, bodyAB, one]) docPairs_text.wf (ws := []) (ws' := [])
    (by simp [IsWs]) (by simp [IsWs]) trivial trivial

/-- The condition on numbers is needed: `1` and `1` followed by `2`. -/
theorem C93_follows_needed : verdictOf (.cmp .eq (.field ⟨0, []⟩) (.value (.int 1)) : Expr demoExt) [49] = .ok (some true) ∧
    verdictOf (.cmp .eq (.field ⟨0, []⟩) (.value (.int 1)) : Expr demoExt) ([49] ++ [50]) = .ok (some false) := by decide +kernel

end Verif.Transform
